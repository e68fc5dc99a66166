import Verif.Spec.HiDaisee
import Verif.Props.TPUnbiased
import Mathlib.Probability.ProductMeasure
import Mathlib.Probability.UniformOn

/-!
# HiDaisee: vocabulary of the property C138
-/

set_option linter.unusedSectionVars false
set_option autoImplicit false

namespace Verif
namespace HiD

open MeasureTheory

variable {d : ℕ}

/-- What the generator delivers for one iteration: the numbers that choose the way down to a leaf, the numbers the sample is
made from, and the dimension of a split. -/
abbrev Draws (d : ℕ) := (ℕ → ℝ) × Pt ℝ d × Fin d

/-- The law of the random outcomes of one iteration: independent, uniform on `[0, 1)` and on the dimensions. -/
noncomputable def drawLaw (d : ℕ) : Measure (Draws d) :=
  (Measure.infinitePi fun _ : ℕ => (volume : Measure ℝ).restrict (Set.Ico 0 1)).prod
    ((uniformDraw d).prod (ProbabilityTheory.uniformOn Set.univ))

/-- The law of the random outcomes of all iterations: independent. -/
noncomputable def drawStream (d : ℕ) : Measure (ℕ → Draws d) := Measure.infinitePi fun _ : ℕ => drawLaw d

/-- The outcomes `ω` as the outcomes of the iterations of a call. -/
def outcomes (ω : ℕ → Draws d) (k : ℕ) : Iter ℝ d := ⟨(ω k).1, (ω k).2.1, (ω k).2.2⟩

/-- Weighted average of `f` over samples `xs` with weights `ws`. -/
noncomputable def weightedMean (f : Pt ℝ d → ℝ) (xs : List (Pt ℝ d)) (ws : List ℝ) : ℝ :=
  (List.zipWith (fun x w => f x * w) xs ws).sum / ws.sum

/-- Average of `f` under the density `p`, normalised on the box with corners `lo` and `hi`. -/
noncomputable def targetMean (f p : Pt ℝ d → ℝ) (lo hi : Pt ℝ d) : ℝ :=
  (∫ x in {x | InBox lo hi x}, f x * p x) / ∫ x in {x | InBox lo hi x}, p x

/-- As more and more samples are asked of a new sampler (parameters `c`, target density `p`), the calls return and the
weighted averages of `f` over the returned samples tend to `E`. -/
def Settles (c : Cfg ℝ) (p : Pt ℝ d → ℝ) (lo hi : Pt ℝ d) (f : Pt ℝ d → ℝ) (E : ℝ) (ω : ℕ → Draws d) : Prop :=
  ∀ δ > 0, ∃ N, ∀ n ≥ N, ∃ (S : Sampler ℝ d) (ws : List ℝ),
    importanceSample c (fun x => .fin (p x)) n (outcomes ω) (reset lo hi) = .ok S ∧ S.weights = ws.map XF.fin ∧
    |weightedMean f S.samples ws - E| < δ

end HiD
end Verif
