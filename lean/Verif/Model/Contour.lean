import Verif.Model.Grid
import Mathlib.Analysis.SpecialFunctions.Exp

/-!
# Contour plots of two dimensional densities: `utils/plot_utils.py`, `benchmark/CBenchmark.py`
-/

set_option linter.unusedSectionVars false
set_option autoImplicit false

namespace Verif
namespace Contour

/-- What is handed to `ax.contour`: the two axes, the matrix of values (a row for every value of the second axis) and the
levels. -/
structure Plot where
  xs : List ℝ
  ys : List ℝ
  z : List (List ℝ)
  levels : List ℝ

/-- `np.arange(a, b, s)` for `s > 0`. -/
noncomputable def arange (a b s : ℝ) : List ℝ := (List.range ⌈(b - a) / s⌉.toNat).map fun i : ℕ => a + i * s

/-- plot_utils.py:28-31 `grid_sample_distribution`, without the points. -/
noncomputable def gridSample (f : (Fin 2 → ℝ) → ℝ) (lo hi res : Fin 2 → ℝ) :
    Except PyErr (List ℝ × (Fin 2 → List ℝ) × (Fin 2 → ℕ)) :=
  match makeGrid lo hi res with
  | .error e => .error e
  | .ok (grid, dims, shape) => .ok (grid.map f, dims, shape)

/-- plot_utils.py:49-59 `plot_grid_sampled_pdfs` without `marginalize_axes`: nothing is drawn for a constant. `ax.contour`
refuses less than two rows or columns. The values are finite numbers. -/
noncomputable def plotGrid (dims : Fin 2 → List ℝ) (prob : List ℝ) (shape : Fin 2 → ℕ) : Except PyErr (Option Plot) :=
  if prob.length ≠ shape 0 * shape 1 then .error .value
  else
    let z := (List.range (shape 1)).map fun j => (List.range (shape 0)).map fun i => prob.getD (i * shape 1 + j) 0
    match z.flatten.min?, z.flatten.max? with
    | some mn, some mx =>
      if ¬ mn < mx then .ok none
      else if shape 0 < 2 ∨ shape 1 < 2 then .error .type
      else .ok (some ⟨dims 0, dims 1, z, arange mn mx ((mx - mn) / 15)⟩)
    | _, _ => .error .value

/-- plot_utils.py:62-64 `plot_pdf2d`, by which the samplers draw their densities and `CDistribution.draw` draws
distributions. -/
noncomputable def plotPdf2d (f : (Fin 2 → ℝ) → ℝ) (lo hi res : Fin 2 → ℝ) (scale : ℝ) : Except PyErr (Option Plot) :=
  match gridSample f lo hi res with
  | .error e => .error e
  | .ok (prob, dims, shape) => plotGrid dims (prob.map (· * scale)) shape

/-- CBenchmark.py:438-443: the target in the display of a run in two dimensions; `lo` and `hi` is its support. -/
noncomputable def benchmarkPlot (f : (Fin 2 → ℝ) → ℝ) (lo hi : Fin 2 → ℝ) : Except PyErr (Option Plot) :=
  match gridSample f lo hi fun _ => 1 / 50 with
  | .error e => .error e
  | .ok (logProb, dims, shape) => plotGrid dims (logProb.map Real.exp) shape

end Contour
end Verif
