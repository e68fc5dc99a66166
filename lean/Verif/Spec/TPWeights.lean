import Verif.Proof.TPGeom
import Verif.Spec.TPConsistent

/-!
What the weights of the tree pyramid sampler are supposed to be.
-/

set_option autoImplicit false

namespace Verif

variable {K : Type*} [Field K] [LinearOrder K] [IsStrictOrderedRing K] {d : ℕ}

/-- All generator outputs of the call are in `(0, 1)`. -/
def TPCall.Open (c : TPCall K d) : Prop := (∀ i, 0 < c.u0 i ∧ c.u0 i < 1) ∧ ∀ it ∈ c.its, it.Open

/-- The root cube (centre `c`, half side `R`) is divided into one dyadic cell per point, every point is in its cell, and
the weights are target times cell volume, normalised. -/
def CellWeighted (t : Pt K d → K) (c : Pt K d) (R : K) (xs : List (Pt K d)) (ws : List (XF K)) : Prop :=
  ∃ cells : List (Pt K d × K), cells.length = xs.length ∧
    (∀ x, InHalfOpen c R x → (cells.countP fun b => decide (InHalfOpen b.1 b.2 x)) = 1) ∧
    (cells.map fun b => (2 * b.2) ^ d).sum = (2 * R) ^ d ∧ (∀ b ∈ cells, ∃ k : ℕ, b.2 = R / 2 ^ k) ∧
    (∀ e ∈ xs.zip cells, ∀ i, e.2.1 i - e.2.2 ≤ e.1 i ∧ e.1 i ≤ e.2.1 i + e.2.2) ∧
    ws = (List.zipWith (fun x b => t x * (2 * b.2) ^ d) xs cells).map fun w =>
      XF.fin (w / (List.zipWith (fun x b => t x * (2 * b.2) ^ d) xs cells).sum)

end Verif
