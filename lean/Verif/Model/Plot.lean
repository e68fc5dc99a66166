import Mathlib.Data.Real.Sqrt
import Mathlib.Data.Finset.Sort

/-!
# The curves of the result plots

`benchmark/CBenchmark.py:284-317` `make_2d_plot` as called by `make_plots` (lines 250-258): for each method the rows of the
result file of that method, dimension and target are grouped by `output_samples`, averaged, smoothed and drawn. The drawing
itself, colours, markers and axes are left out.
-/

set_option linter.unusedSectionVars false
set_option autoImplicit false

namespace Verif
namespace Plot

variable {K : Type*} [Field K]

/-- The columns of a row of the result file that a plot uses: `method`, `dims`, `target_d`, `output_samples` and the metric.
The metric is a finite number (pandas leaves NaN out of averages, which is not modelled). -/
structure Rec (K : Type*) where
  method : String
  dims : ℕ
  target : String
  n : ℕ
  y : K

/-- CBenchmark.py:294-296: the rows of a method on a target. -/
def select (m : String) (dims : ℕ) (target : String) (data : List (Rec K)) : List (Rec K) :=
  data.filter fun r => r.method == m && (r.dims == dims && r.target == target)

/-- The keys of `groupby(xaxis)`: the sample counts that occur, in increasing order; also `x_data` (line 298), where the
average of equal numbers is the number. -/
def keys (data : List (Rec K)) : List ℕ := (data.map Rec.n).toFinset.sort (· ≤ ·)

/-- `groupby(xaxis)[yaxis].mean()` for the group of `n`. -/
def groupMean (data : List (Rec K)) (n : ℕ) : K :=
  ((data.filter fun r => r.n == n).map Rec.y).sum / ((data.filter fun r => r.n == n).length : K)

/-- The window of ten entries that ends at position `i`. -/
def window {α : Type*} (l : List α) (i : ℕ) : List α := (l.drop (i - 9)).take 10

/-- `rolling(window=10).mean()` at position `i`: without ten entries the result is NaN, here `none`. -/
def rollMean (l : List K) (i : ℕ) : Option K := if i < 9 then none else some ((window l i).sum / 10)

/-- CBenchmark.py:298-307: the points of the curve of a method: sample count and height, `none` is not drawn. A method
without rows has no curve. -/
def curve (m : String) (dims : ℕ) (target : String) (data : List (Rec K)) : List (ℕ × Option K) :=
  let D := select m dims target data
  let means := (keys D).map (groupMean D)
  (List.range (keys D).length).map fun i => ((keys D).getD i 0, rollMean means i)

/-- `rolling(window=10).std()` at position `i`: the sample standard deviation of ten entries. -/
noncomputable def rollStd (l : List ℝ) (i : ℕ) : Option ℝ :=
  if i < 9 then none
  else some (Real.sqrt (((window l i).map fun y => (y - (window l i).sum / 10) ^ 2).sum / 9))

/-- CBenchmark.py:302, 309: half the height of the shaded band, `np.sqrt(y_data.mean().rolling(window=10).std())`. -/
noncomputable def band (m : String) (dims : ℕ) (target : String) (data : List (Rec ℝ)) : List (ℕ × Option ℝ) :=
  let D := select m dims target data
  let means := (keys D).map (groupMean D)
  (List.range (keys D).length).map fun i => ((keys D).getD i 0, (rollStd means i).map Real.sqrt)

end Plot
end Verif
