import Verif.Model.Py
import Mathlib.Data.Real.Archimedean
import Mathlib.Algebra.Order.Floor.Ring
import Mathlib.Data.Int.Log

/-!
# How the benchmark passes the search space to the methods

`benchmark/CBenchmark.py:58-80` `load_methods` prints the corners of the support of the target with
`np.array2string(..., separator=', ')` into the source text of a constructor call and evaluates that text. The printing
uses numpy's default options: precision 8, threshold 1000, `floatmode='maxprec'`, no suppression of small numbers.
-/

set_option linter.unusedSectionVars false
set_option autoImplicit false

namespace Verif
namespace SearchSpace

variable {d : ℕ}

/-- The rounding of numpy's digit generation: `rnd x` is an integer closest to `x` (which one is taken at a tie is left open). -/
structure Rounding where
  rnd : ℝ → ℤ
  close : ∀ x, |(rnd x : ℝ) - x| ≤ 1/2

/-- numpy/core/arrayprint.py `FloatingFormat.fillFormat`: an array is printed in scientific notation if its largest non zero
magnitude is at least `1e8`, the smallest one less than `0.0001`, or their quotient above 1000. -/
def Scientific (x : Fin d → ℝ) : Prop :=
  (∃ i, x i ≠ 0) ∧
    ((∃ i, 100000000 ≤ |x i|) ∨ (∃ i, x i ≠ 0 ∧ |x i| < 1/10000) ∨ ∃ i j, x j ≠ 0 ∧ 1000 * |x j| < |x i|)

/-- A number printed in positional notation with at most 8 fractional digits, read back. (Reading rounds the decimal number to
a double once more, which is not modelled.) -/
noncomputable def positional (R : Rounding) (x : ℝ) : ℝ := R.rnd (x * 10 ^ 8) / 10 ^ 8

/-- A number printed in scientific notation with at most 8 fractional digits of the mantissa, read back. -/
noncomputable def scientific (R : Rounding) (x : ℝ) : ℝ :=
  if x = 0 then 0 else R.rnd (x / (10:ℝ) ^ Int.log 10 |x| * 10 ^ 8) / 10 ^ 8 * (10:ℝ) ^ Int.log 10 |x|

open Classical in
/-- `np.array(eval(np.array2string(x, separator=', ')))`: arrays of more than 1000 entries are abbreviated with `...`, so that
another array (of the first and last three entries and an Ellipsis) is read back, here `none`. -/
noncomputable def printed (R : Rounding) (x : Fin d → ℝ) : Option (Fin d → ℝ) :=
  if 1000 < d then none
  else if Scientific x then some fun i => scientific R (x i)
  else some fun i => positional R (x i)

/-- CBenchmark.py:64-65, 77, 175-177: the corners `space_min` and `space_max` the constructors of the methods receive for a target
with the support `lo`, `hi`. -/
noncomputable def received (R : Rounding) (lo hi : Fin d → ℝ) : Option ((Fin d → ℝ) × (Fin d → ℝ)) :=
  match printed R lo, printed R hi with
  | some a, some b => some (a, b)
  | _, _ => none

end SearchSpace
end Verif
