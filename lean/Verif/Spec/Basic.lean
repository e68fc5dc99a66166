import Verif.Model.XF

/-!
# Shared vocabulary of the property statements
-/

namespace Verif

/-- A probability vector: nonnegative entries adding up to one. -/
def IsProbVec {K : Type*} [Field K] [LinearOrder K] (l : List K) : Prop :=
  (∀ w ∈ l, 0 ≤ w) ∧ l.sum = 1

/-- An admissible log density value: a real number or `-inf`. -/
def IsLogDensity (v : XF ℝ) : Prop := v = .ninf ∨ ∃ a, v = .fin a

/-- The density whose logarithm is given (`-inf` stands for density 0). -/
noncomputable def densOf : XF ℝ → ℝ
  | .fin a => Real.exp a
  | _ => 0

/-- Weighted average of component densities at a point. -/
noncomputable def mixDensity {X : Type*} (models : List (X → XF ℝ)) (w : List ℝ) (x : X) : ℝ :=
  (List.zipWith (fun f wi => wi * densOf (f x)) models w).sum

end Verif
