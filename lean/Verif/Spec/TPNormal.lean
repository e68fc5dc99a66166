import Verif.Model.TPNormal
import Mathlib.Probability.Distributions.Gaussian.Real

/-!
Specification for the tree pyramid sampler with the kernel "normal": the isotropic normal density, and the trees that occur.
-/

set_option autoImplicit false

namespace Verif

variable {d : ℕ}

namespace TPNormal

/-- Density of the normal distribution with mean `c` and covariance `v I`. -/
noncomputable def isoDensity (c : Pt ℝ d) (v : ℝ) (x : Pt ℝ d) : ℝ :=
  (Real.sqrt (2 * Real.pi * v))⁻¹ ^ d * Real.exp (-(∑ i, (x i - c i) ^ 2) / (2 * v))

/-- It is the product of the one dimensional normal densities of Mathlib. -/
theorem isoDensity_eq_prod (c : Pt ℝ d) (v : NNReal) (x : Pt ℝ d) :
    isoDensity c v x = ∏ i, ProbabilityTheory.gaussianPDFReal (c i) v (x i) := by
  simp only [isoDensity, ProbabilityTheory.gaussianPDFReal, Finset.prod_mul_distrib, Finset.prod_const, Finset.card_univ,
    Fintype.card_fin, ← Real.exp_sum, ← Finset.sum_div, Finset.sum_neg_distrib]

/-- Trees that occur with the kernel "normal": created for the box `[dmin, dmax]`, then any interleaving of expanding,
sampling, weighing, normalising and resampling, with any points and any densities. -/
inductive Reach (dmin dmax : Pt ℝ d) : TPTree ℝ d → Prop
  | init {T : TPTree ℝ d} : TPTree.init dmin dmax = .ok T → Reach dmin dmax T
  | expand {T T' : TPTree ℝ d} {o : Option (List ℕ)} (p : ℕ) (ess : Option ℝ) (nMin : ℕ) :
      Reach dmin dmax T → T.expand p ess nMin = .ok (T', o) → Reach dmin dmax T'
  | sample {T T' : TPTree ℝ d} (p : ℕ) (x : Pt ℝ d) : Reach dmin dmax T → T.sampleNode p x = .ok T' → Reach dmin dmax T'
  | weigh {T T' : TPTree ℝ d} (p : ℕ) (t q : Pt ℝ d → XF ℝ) :
      Reach dmin dmax T → T.weighNode p t q = .ok T' → Reach dmin dmax T'
  | normalize {T : TPTree ℝ d} : Reach dmin dmax T → Reach dmin dmax T.selfNormalize
  | resample {T T' : TPTree ℝ d} (target : Pt ℝ d → XF ℝ) (z : ℕ → Pt ℝ d) :
      Reach dmin dmax T → resample T target z = .ok T' → Reach dmin dmax T'

end TPNormal
end Verif
