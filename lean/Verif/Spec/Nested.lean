import Verif.Model.Nested

/-!
# Vocabulary of the nested sampling properties
-/

set_option autoImplicit false

namespace Verif
namespace Nested

variable {d : ℕ}

/-- No clock reading of the call was past the timeout. -/
def NoTimeout (env : ℕ → Env d) : Prop := ∀ i, (env i).expired = false ∧ ∀ t ∈ (env i).tries, t.late = false

/-- The objects a program can hold after calls that satisfy `P` (about the random outcomes and the clock): new or reset
with initial draws in `[0,1)`, or left by a call that returned or raised. -/
inductive Reach (c : Cfg d) (P : (ℕ → Env d) → Prop) : Nest d → Prop
  | new (us : Fin c.N → Fin d → ℝ) : (∀ k i, 0 ≤ us k i ∧ us k i < 1) → Reach c P (reset c us)
  | isDone {S S' : Nest d} {n : ℕ} {env : ℕ → Env d} {idx : ℕ → ℕ} :
      Reach c P S → P env → importanceSample c n env idx S = .done S' → Reach c P S'
  | isRaised {S S' : Nest d} {n : ℕ} {env : ℕ → Env d} {idx : ℕ → ℕ} {e : PyErr} :
      Reach c P S → P env → importanceSample c n env idx S = .raised e S' → Reach c P S'

/-- Points of the search space. -/
def InBox (lo hi x : Fin d → ℝ) : Prop := ∀ i, lo i ≤ x i ∧ x i ≤ hi i

end Nested
end Verif
