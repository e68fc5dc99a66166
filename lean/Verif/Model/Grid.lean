import Verif.Model.Py
import Mathlib.Algebra.Order.Floor.Ring
import Mathlib.Algebra.Order.Field.Basic

/-!
# `make_grid` (sampling_methods/base.py:249-264, the same code is in utils/plot_utils.py:10-25)

Arrays of any rank are a shape and a function of the multi-index; flattening follows numpy's default C order.
-/

set_option linter.unusedSectionVars false
set_option autoImplicit false

namespace Verif

/-- A numpy array: its shape and the value at each multi-index (`get` is only meaningful at valid indices). -/
structure ND (K : Type*) where
  shape : List ℕ
  get : List ℕ → K

namespace ND
variable {K : Type*}

/-- Values in C order, the last index running fastest (`ndarray.ravel`). -/
def ravelAux : List ℕ → (List ℕ → K) → List K
  | [], f => [f []]
  | n :: s, f => (List.range n).flatMap fun i => ravelAux s fun idx => f (i :: idx)

/-- `ndarray.ravel`. -/
def ravel (a : ND K) : List K := ravelAux a.shape a.get

/-- `ndarray.T`: the axes in reverse order. -/
def transpose (a : ND K) : ND K := ⟨a.shape.reverse, fun idx => a.get idx.reverse⟩

end ND

/-- Exchange the first two entries, if there are two. -/
def swap01 {α : Type*} : List α → List α
  | a :: b :: r => b :: a :: r
  | l => l

variable {K : Type*} [Field K] [LinearOrder K]

/-- `np.array(np.meshgrid(*dims))`: axis 0 selects the coordinate; the default `indexing='xy'` exchanges the first two
axes of the coordinate arrays. -/
def meshgrid (dims : List (List K)) : ND K :=
  ⟨dims.length :: swap01 (dims.map List.length), fun idx => match idx with
    | [] => 0
    | k :: r => (dims.getD k []).getD ((swap01 r).getD k 0) 0⟩

/-- `a.reshape(-1, d)` of a flattened array, `d > 0`. -/
def reshapeRows (d : ℕ) (l : List K) : List (Fin d → K) :=
  (List.range (l.length / d)).map fun i => fun k => l.getD (i * d + k) 0

/-- `np.linspace(lo, hi, n)`: `n` equally spaced values from `lo` to `hi`, only `lo` for `n = 1`. -/
def linspace (lo hi : K) (n : ℕ) : List K :=
  (List.range n).map fun i : ℕ => if n = 1 then lo else lo + (i : K) * ((hi - lo) / ((n : K) - 1))

/-- Python `int(x)`: rounds towards zero. -/
def pyInt [FloorRing K] (x : K) : ℤ := if 0 ≤ x then ⌊x⌋ else ⌈x⌉

/-- base.py:251-255: number of points of an axis. -/
def axisCount [FloorRing K] (lo hi res : K) : ℕ :=
  let n := pyInt ((hi - lo) / res)
  if n < 1 then 1 else n.toNat

/-- base.py:249-264 `make_grid`; `resolution` is given per axis (a scalar one is the same for all axes). Returns the
points, the axes and the shape. A zero resolution makes `int()` fail on an infinity or a NaN (OverflowError or
ValueError, one error here) and zero dimensions make `reshape(-1, 0)` fail. -/
def makeGrid [FloorRing K] {d : ℕ} (lo hi res : Fin d → K) :
    Except PyErr (List (Fin d → K) × (Fin d → List K) × (Fin d → ℕ)) :=
  if ∃ i, res i = 0 then .error .value
  else if d = 0 then .error .value
  else
    let dims : Fin d → List K := fun i => linspace (lo i) (hi i) (axisCount (lo i) (hi i) (res i))
    .ok (reshapeRows d (meshgrid (List.ofFn dims)).transpose.ravel, dims, fun i => (dims i).length)

end Verif
