import Verif.Model.TreePyramid

/-!
Histories of a tree pyramid: arbitrary interleavings of the operations of the tree. The counter is the number of `expand`
calls that created children.
-/

set_option autoImplicit false

namespace Verif

variable {K : Type*} [Field K] [LinearOrder K] {d : ℕ}

/-- One operation on a tree. -/
inductive TPOp (K : Type*) (d : ℕ) where
  | expand (p : ℕ) (essTarget : Option K) (nMin : ℕ)
  | sample (p : ℕ) (x : Pt K d)
  | weigh (p : ℕ) (target importance : Pt K d → XF K)
  | normalize
  | resample (target : Pt K d → XF K) (u : ℕ → Pt K d)

/-- Effect of one operation, counting the expansions. -/
def TPOp.step (s : TPTree K d × ℕ) : TPOp K d → Except PyErr (TPTree K d × ℕ)
  | .expand p ess nMin => (s.1.expand p ess nMin).map fun r => (r.1, if r.2.isSome then s.2 + 1 else s.2)
  | .sample p x => (s.1.sampleNode p x).map fun T => (T, s.2)
  | .weigh p t q => (s.1.weighNode p t q).map fun T => (T, s.2)
  | .normalize => .ok (s.1.selfNormalize, s.2)
  | .resample t u => (s.1.resample t u).map fun T => (T, s.2)

/-- `T` is reached from the tree created for the box `[dmin, dmax]` by the history `ops`, with `e` expansions. -/
def TPReach (dmin dmax : Pt K d) (ops : List (TPOp K d)) (T : TPTree K d) (e : ℕ) : Prop :=
  ∃ T0, TPTree.init dmin dmax = .ok T0 ∧ ops.foldlM TPOp.step (T0, 0) = .ok (T, e)

end Verif
