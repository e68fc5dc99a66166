import Verif.Spec.Nested
import Verif.Props.MultiNestedRun
import Mathlib.Topology.Instances.Real.Lemmas

/-!
# Vocabulary of C134 and C135: calls one after the other, averages over the returned samples
-/

set_option linter.unusedSectionVars false
set_option autoImplicit false

namespace Verif

/-- `a` is the weighted average of `f` over the samples of the object: finite weights, as many as samples. -/
def Nested.Average {d : ℕ} (f : (Fin d → ℝ) → ℝ) (S : Nested.Nest d) (a : ℝ) : Prop :=
  ∃ w : List ℝ, S.weights = w.map XF.fin ∧ w.length = S.samples.length ∧
    a = (List.zipWith (fun x v => f x * v) S.samples w).sum

/-- `S'` is the object after some more calls of `importance_sample` that returned. -/
inductive Nested.Later {d : ℕ} (c : Nested.Cfg d) (P : (ℕ → Nested.Env d) → Prop) (S : Nested.Nest d) : Nested.Nest d → Prop
  | refl : Nested.Later c P S S
  | call {T T' : Nested.Nest d} {n : ℕ} {env : ℕ → Nested.Env d} {idx : ℕ → ℕ} :
      Nested.Later c P S T → P env → Nested.importanceSample c n env idx T = .done T' → Nested.Later c P S T'

/-- The same for multi-nested sampling. -/
inductive MultiNested.Later {d : ℕ} (c : MultiNested.Cfg d) (S : Nested.Nest d) : Nested.Nest d → Prop
  | refl : MultiNested.Later c S S
  | call {T T' : Nested.Nest d} {n fuel : ℕ} {km : ℕ → ℕ → ℕ} {env : ℕ → MultiNested.Env d} {idx : ℕ → ℕ} :
      MultiNested.Later c S T → (∀ k, 0 < k → ∀ p < c.N, km k p < k) →
      MultiNested.importanceSample c n km fuel env idx T = .done T' → MultiNested.Later c S T'

end Verif
