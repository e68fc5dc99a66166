import Verif.Spec.MPMC

/-!
# Vocabulary of C120: an M-PMC object together with its past
-/

set_option linter.unusedSectionVars false
set_option autoImplicit false

namespace Verif
namespace PMC

variable {d N : ℕ}

/-- `Rounds k sigma lo hi t hs S`: an object that was constructed or reset and then completed iterations against the log
density `t`, in one or several calls, is now in the state `S`; `hs` are its states just before each of these iterations, in
order. Iteration `r` drew the samples `r * k, ..., r * k + k - 1` from the mixture of the state `hs[r]`. -/
inductive Rounds (k : ℕ) (sigma : ℝ) (lo hi : Fin d → ℝ) (t : (Fin d → XF ℝ) → XF ℝ) : List (PMC d N) → PMC d N → Prop
  | reset (u : Fin N → Fin d → ℝ) (S : PMC d N) (h : reset N sigma lo hi u = .ok S) : Rounds k sigma lo hi t [] S
  | round (hs : List (PMC d N)) (S S' : PMC d N) (h : Rounds k sigma lo hi t hs S) (it : Iter d)
      (hb : body k t it S = (S', none)) : Rounds k sigma lo hi t (hs ++ [S]) S'

/-- Sample `i` is the point `x`, its weight is `w`, its target density is `p`, and `q` is the density that the object
reported for the point `x` (`prob`) just before the batch of the sample was drawn. -/
def Drawn (k : ℕ) (t : (Fin d → XF ℝ) → XF ℝ) (hs : List (PMC d N)) (S : PMC d N) (i : ℕ) (w p q : ℝ) : Prop :=
  ∃ (x : Fin d → ℝ) (R : PMC d N), S.samples[i]? = some (up x) ∧ S.weights[i]? = some (.fin w) ∧ p = densOf (t (up x)) ∧
    hs[i / k]? = some R ∧ R.prob (up x) = .fin q

/-- The weights of the samples `i` and `j` are in the same proportion as target density / proposal density. -/
def SameScale (k : ℕ) (t : (Fin d → XF ℝ) → XF ℝ) (hs : List (PMC d N)) (S : PMC d N) (i j : ℕ) : Prop :=
  ∀ w p q w' p' q', Drawn k t hs S i w p q → Drawn k t hs S j w' p' q' → w * (p' / q') = w' * (p / q)

end PMC
end Verif
