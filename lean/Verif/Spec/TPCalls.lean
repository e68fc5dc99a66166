import Verif.Model.TreePyramid

/-!
Use of a tree pyramid sampler: a new sampler (or one that was reset) and any number of `importance_sample` calls, each
with its own request size, random outcomes and clock.
-/

set_option autoImplicit false

namespace Verif

variable {K : Type*} [Field K] [LinearOrder K] {d : ℕ}

/-- One call: requested number of samples, generator output for a first root sample, and the iterations. -/
structure TPCall (K : Type*) (d : ℕ) where
  n : ℕ
  u0 : Pt K d
  its : List (TPIter K d)

/-- All generator outputs of the call are in `[0, 1)`. -/
def TPCall.InRange (c : TPCall K d) : Prop :=
  (∀ i, 0 ≤ c.u0 i ∧ c.u0 i < 1) ∧
  ∀ it ∈ c.its, (∀ p i, 0 ≤ it.draw p i ∧ it.draw p i < 1) ∧ (∀ p i, 0 ≤ it.redraw p i ∧ it.redraw p i < 1)

/-- Successive calls on the same sampler with the same target. -/
def TPSampler.calls (cfg : TPConfig K) (target : Pt K d → XF K) (S : TPSampler K d) (cs : List (TPCall K d)) :
    Except PyErr (TPSampler K d) :=
  cs.foldlM (fun S c => (importanceSampleSimple cfg target c.n c.u0 c.its S).map fun r => r.1) S

end Verif
