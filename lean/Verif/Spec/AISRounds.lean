import Verif.Model.AIS

/-!
# Vocabulary of C122: a DM-AIS or layered AIS object together with its past
-/

set_option linter.unusedSectionVars false
set_option autoImplicit false

namespace Verif
namespace AIS

variable {K : Type*} [Field K] [LinearOrder K] {d : ℕ}

/-- `Rounds N lo hi body past S`: an object that was constructed or reset and then ran iterations `body`, in one or several
calls, is now in the state `S`; `past` are its states just before each of the completed iterations, in order. An iteration
may also raise. -/
inductive Rounds {I : Type*} (N : ℕ) (lo hi : Fin d → K) (body : I → AIS K d → AIS K d × Option PyErr) :
    List (AIS K d) → AIS K d → Prop
  | reset (u : ℕ → Fin d → K) (S : AIS K d) (h : AIS.reset N lo hi u = .ok S) : Rounds N lo hi body [] S
  | round (past : List (AIS K d)) (S S' : AIS K d) (h : Rounds N lo hi body past S) (it : I)
      (hb : body it S = (S', none)) : Rounds N lo hi body (past ++ [S]) S'
  | raised (past : List (AIS K d)) (S S' : AIS K d) (h : Rounds N lo hi body past S) (it : I) (e : PyErr)
      (hb : body it S = (S', some e)) : Rounds N lo hi body past S'

/-- Sample `i` of what the object returns has weight `w`; the target density at the sample is `p`; `q` is the density the
object reported for the sample (`prob`) just before the batch of `b` samples it belongs to was drawn. -/
def Drawn (b : ℕ) (qv : (Fin d → K) → (Fin d → K) → K) (t : (Fin d → K) → K) (past : List (AIS K d)) (S : AIS K d) (i : ℕ)
    (w p q : K) : Prop :=
  ∃ (x : Fin d → K) (R : AIS K d), S.returned.1[i]? = some x ∧ S.returned.2[i]? = some (.fin w) ∧ p = t x ∧
    past[i / b]? = some R ∧ R.prob (fun c x => .fin (qv c x)) x = .fin q

/-- The returned weights of the samples `i` and `j` are in the same proportion as target density / proposal density. -/
def SameScale (b : ℕ) (qv : (Fin d → K) → (Fin d → K) → K) (t : (Fin d → K) → K) (past : List (AIS K d)) (S : AIS K d)
    (i j : ℕ) : Prop :=
  ∀ w p q w' p' q', Drawn b qv t past S i w p q → Drawn b qv t past S j w' p' q' → w * (p' / q') = w' * (p / q)

end AIS
end Verif
