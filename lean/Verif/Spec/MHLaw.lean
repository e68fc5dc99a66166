import Verif.Model.MH
import Mathlib.MeasureTheory.Constructions.Pi
import Mathlib.MeasureTheory.Measure.Lebesgue.Basic
import Mathlib.MeasureTheory.Measure.WithDensity

/-!
# The transition probabilities of Metropolis-Hastings
-/

set_option autoImplicit false

namespace Verif
namespace MHast

open MeasureTheory

variable {d : ℕ}

/-- A sampler for a target with density `p` and proposed offsets with density `q`. -/
noncomputable def densCfg (lo hi : Fin d → ℝ) (p q : (Fin d → ℝ) → ℝ) : Cfg d :=
  ⟨lo, hi, fun x => XF.log (.fin (p x)), fun z => XF.log (.fin (q z)), 1, 0, 1⟩

/-- Law of the random numbers of one try: an offset with density `q` and, independently, a uniform number. -/
noncomputable def tryLaw (q : (Fin d → ℝ) → ℝ) : Measure ((Fin d → ℝ) × ℝ) :=
  (volume.withDensity fun z => ENNReal.ofReal (q z)).prod (volume.restrict (Set.Ico 0 1))

/-- The tries of a step with enough time. -/
def triesOf {k : ℕ} (ω : Fin k → (Fin d → ℝ) × ℝ) : List (Try d) := List.ofFn fun i => ⟨(ω i).1, (ω i).2, false⟩

/-- The probability that a single try from `x` is accepted at a point of `B`. -/
noncomputable def acceptProb (c : Cfg d) (q : (Fin d → ℝ) → ℝ) (x : Fin d → ℝ) (B : Set (Fin d → ℝ)) : ENNReal :=
  tryLaw q {t | accepts c x (propose c x t.1) t.2 = true ∧ propose c x t.1 ∈ B}

/-- The probability that `mcmc_step` from `x` with unlimited time returns a point of `B`: the limit, over the number `k`
of available tries, of the probability that it has returned a point of `B` within `k` independent tries. -/
noncomputable def stepProb (c : Cfg d) (q : (Fin d → ℝ) → ℝ) (S : MH d) (x : Fin d → ℝ) (B : Set (Fin d → ℝ)) : ENNReal :=
  ⨆ k : ℕ, Measure.pi (fun _ : Fin k => tryLaw q) {ω | ∃ S' y, mcmcStep c x ⟨false, triesOf ω⟩ S = .done (S', y) ∧ y ∈ B}

/-- Measurable density of a probability distribution. -/
structure IsDensity (p : (Fin d → ℝ) → ℝ) : Prop where
  meas : Measurable p
  nonneg : ∀ x, 0 ≤ p x
  total : ∫⁻ x, ENNReal.ofReal (p x) = 1

end MHast
end Verif
