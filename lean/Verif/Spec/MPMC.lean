import Verif.Model.MPMC
import Verif.Spec.Basic
import Mathlib.Analysis.Convex.Combination

/-!
# Vocabulary of the M-PMC properties
-/

set_option autoImplicit false

namespace Verif

variable {d N : ℕ}

/-- An array of numbers seen as an array of extended numbers. -/
def up (x : Fin d → ℝ) : Fin d → XF ℝ := fun i => .fin (x i)

namespace PMC

/-- A sample with its weight and its posterior probabilities, all of them numbers. -/
structure RRow (d N : ℕ) where
  x : Fin d → ℝ
  w : ℝ
  rho : Fin N → ℝ

/-- The row as the code sees it. -/
def RRow.up (r : RRow d N) : Row d N := ⟨Verif.up r.x, .fin r.w, fun n => .fin (r.rho n)⟩

/-- A batch with normalised weights and posterior probabilities. -/
structure IsBatch (rs : List (RRow d N)) : Prop where
  weights : IsProbVec (rs.map RRow.w)
  posterior : ∀ r ∈ rs, (∀ n, 0 ≤ r.rho n) ∧ ∑ n, r.rho n = 1

/-- The covariance of eq. 14.3 of Cappe et al. (2008): every sample weighted with weight * posterior / component weight,
around `mu`. -/
noncomputable def weightedCov (rs : List (RRow d N)) (n : Fin N) (mu : Fin d → ℝ) : Matrix (Fin d) (Fin d) ℝ :=
  Matrix.of fun a b =>
    (rs.map fun r => r.w * r.rho n / (rs.map fun r => r.w * r.rho n).sum * ((r.x a - mu a) * (r.x b - mu b))).sum

/-- The unweighted scatter matrix around `mu`. -/
def scatter (rs : List (RRow d N)) (mu : Fin d → ℝ) : Matrix (Fin d) (Fin d) ℝ :=
  Matrix.of fun a b => (rs.map fun r => (r.x a - mu a) * (r.x b - mu b)).sum

end PMC
end Verif
