import Verif.Model.Sample
import Mathlib.Probability.Independence.Basic
import Mathlib.Probability.Distributions.Gaussian.Real

/-!
Specification for the laws of samples: what a generator of Bernoulli outcomes is, and what it means that a random point
follows a reported density.
-/

set_option autoImplicit false

namespace Verif

open MeasureTheory

variable {d : ℕ}

/-- A source of Bernoulli outcomes: `B j p` is the event that the j-th draw succeeds when it is made with probability `p`.
It has probability `p`, and draws at different positions are independent. -/
structure BernoulliSource {Ω : Type*} [MeasurableSpace Ω] (μ : Measure Ω) (B : ℕ → ℝ → Set Ω) : Prop where
  meas : ∀ j p, MeasurableSet (B j p)
  prob : ∀ j p, 0 ≤ p → p ≤ 1 → μ (B j p) = ENNReal.ofReal p
  indep : ∀ p : ℕ → ℝ, ProbabilityTheory.iIndepSet (fun j => B j (p j)) μ

/-- The random point with the given law has the density `dens` reports: `dens` is a finite non-negative number `g x` at every
point and the law is `g(x) dx`. -/
def Follows (law : Measure (Fin d → ℝ)) (dens : (Fin d → ℝ) → XF ℝ) : Prop :=
  ∃ g : (Fin d → ℝ) → ℝ, Measurable g ∧ (∀ x, 0 ≤ g x ∧ dens x = .fin (g x)) ∧
    law = volume.withDensity fun x => ENNReal.ofReal (g x)

/-- `d` independent standard normal numbers. -/
noncomputable def stdNormal (d : ℕ) : Measure (Fin d → ℝ) := Measure.pi fun _ => ProbabilityTheory.gaussianReal 0 1

/-- `u diag(s) v` is a singular value decomposition of `cov`: orthogonal factors and non-negative singular values. -/
structure IsSVD (cov u : Matrix (Fin d) (Fin d) ℝ) (s : Fin d → ℝ) (v : Matrix (Fin d) (Fin d) ℝ) : Prop where
  left : u.transpose * u = 1
  right : v * v.transpose = 1
  nonneg : ∀ i, 0 ≤ s i
  eq : cov = u * Matrix.diagonal s * v

end Verif
