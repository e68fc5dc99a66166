import Verif.Model.Loop

/-!
What it means that a sampling call honours its time limit. A call is driven by a script of iterations; `late` tells that
the clock was past the limit when it was read at the end of an iteration.
-/

set_option autoImplicit false

namespace Verif

/-- Whatever the environment had in store after the first late iteration is not used: the call behaves as if the script
ended with that iteration. -/
def EndsWithLate {ι ρ : Type*} (late : ι → Bool) (run : List ι → ρ) : Prop :=
  ∀ pre it rest, late it = true → run (pre ++ it :: rest) = run (pre ++ [it])

/-- And the call is over after that iteration. -/
def Stops {ι σ : Type*} (late : ι → Bool) (run : List ι → Out σ) : Prop :=
  EndsWithLate late run ∧ ∀ pre it s, late it = true → run (pre ++ [it]) ≠ .running s

end Verif
