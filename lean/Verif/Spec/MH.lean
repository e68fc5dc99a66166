import Verif.Model.MH

/-!
# Vocabulary of the Metropolis-Hastings properties
-/

set_option autoImplicit false

namespace Verif
namespace MHast

variable {d : ℕ}

/-- The point lies in the search space `[lo, hi]`. -/
def InBox (lo hi x : Fin d → ℝ) : Prop := ∀ i, lo i ≤ x i ∧ x i ≤ hi i

/-- Trajectory log and counters agree, and all logged points and samples lie in the search space. -/
structure Accounted (lo hi : Fin d → ℝ) (S : MH d) : Prop where
  labels : S.trajT.length = S.trajS.length
  drawn : S.numQ = S.trajS.length
  targetEvals : S.numPi = 2 * S.trajS.length
  proposalEvals : S.numQEval = 2 * S.trajS.length
  log : ∀ x ∈ S.trajS, InBox lo hi x
  samples : ∀ x ∈ S.samples, InBox lo hi x

/-- The points of the log that carry the label SAMPLE, in order. -/
def markedAsSample (S : MH d) : List (Fin d → ℝ) :=
  ((S.trajS.zip S.trajT).filter fun p => p.2 = .sample).map Prod.fst

/-- The objects a program can hold: built by the constructor, reset, or left by a call of `sample` or
`importance_sample` that returned or raised. -/
inductive Reach (c : Cfg d) : MH d → Prop
  | new (x0 : Fin d → ℝ) : Reach c (init x0)
  | reset {S : MH d} : Reach c S → Reach c (reset S)
  | sampleDone {S S' : MH d} {n : ℕ} {burn : ℕ → List (Try d)} {env : ℕ → ℕ → ℕ → StepEnv d} {res : List (Fin d → ℝ)} :
      Reach c S → sample c n burn env S = .done (S', res) → Reach c S'
  | sampleRaised {S S' : MH d} {n : ℕ} {burn : ℕ → List (Try d)} {env : ℕ → ℕ → ℕ → StepEnv d}
      {res : List (Fin d → ℝ)} {e : PyErr} : Reach c S → sample c n burn env S = .raised e (S', res) → Reach c S'
  | isDone {S S' : MH d} {n : ℕ} {expired : Bool} {script : List (Iter d)} {idx : ℕ → ℕ} :
      Reach c S → importanceSample c n expired script idx S = .done S' → Reach c S'
  | isRaised {S S' : MH d} {n : ℕ} {expired : Bool} {script : List (Iter d)} {idx : ℕ → ℕ} {e : PyErr} :
      Reach c S → importanceSample c n expired script idx S = .raised e S' → Reach c S'

end MHast
end Verif
