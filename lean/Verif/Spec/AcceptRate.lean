import Verif.Model.AcceptRate
import Verif.Model.MH

/-!
# Vocabulary of C123
-/

set_option linter.unusedSectionVars false
set_option autoImplicit false

namespace Verif

/-- The method returned a number, positive and at most one. -/
def IsRate (r : Except PyErr ℚ) : Prop := ∃ a : ℚ, r = .ok a ∧ 0 < a ∧ a ≤ 1

namespace MHast

variable {d : ℕ}

/-- The Metropolis-Hastings objects a program can hold or observe while a call is running, if in every iteration of
`importance_sample` the first step of the chain after the burn in starts before the timeout (its clock starts right there). -/
inductive OpenReach (c : Cfg d) : MH d → Prop
  | new (x0 : Fin d → ℝ) : OpenReach c (init x0)
  | reset {S : MH d} : OpenReach c S → OpenReach c (reset S)
  | sample {S : MH d} (n : ℕ) (burn : ℕ → List (Try d)) (env : ℕ → ℕ → ℕ → StepEnv d) :
      OpenReach c S → OpenReach c (MHast.sample c n burn env S).state.1
  | importanceSample {S : MH d} (n : ℕ) (expired : Bool) (script : List (Iter d)) (idx : ℕ → ℕ)
      (ho : ∀ it ∈ script, (it.env 0 0 0).closed = false) :
      OpenReach c S → OpenReach c (MHast.importanceSample c n expired script idx S).state

end MHast
end Verif
