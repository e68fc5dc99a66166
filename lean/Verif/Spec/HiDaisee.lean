import Verif.Model.HiDaisee

/-!
# HiDaisee: vocabulary of the properties C35, C36, C37
-/

set_option linter.unusedSectionVars false
set_option autoImplicit false

namespace Verif
namespace HiD

variable {K : Type*} [Field K] [LinearOrder K] {d : ℕ}

/-- Points of the box with corners `lo` and `hi`, lower faces excluded. -/
def InBox (lo hi x : Pt K d) : Prop := ∀ i, lo i < x i ∧ x i ≤ hi i

/-- Points of the box of a node. -/
def Node.Has (n : Node K d) (x : Pt K d) : Prop := InBox (fun i => n.center i - n.radius i) (fun i => n.center i + n.radius i) x

/-- Volume of the box of a node. -/
def Node.vol (n : Node K d) : K := ∏ i, 2 * n.radius i

/-- The trees a program can hold: new, or left by a successful split of a leaf or a successful iteration. -/
inductive TReach (lo hi : Pt K d) (target : Pt K d → XF K) : Tree K d → Prop
  | new : TReach lo hi target (Tree.init lo hi)
  | split {T T' : Tree K d} {p : ℕ} {j : Fin d} : TReach lo hi target T → T.split p j target = .ok T' →
      TReach lo hi target T'
  | iter {T T' : Tree K d} {c : Cfg K} {t k : ℕ} {it : Iter K d} : TReach lo hi target T →
      iterate c target t it T = .ok (T', k) → TReach lo hi target T'

/-- The sampler objects after calls that returned. -/
inductive Reach (lo hi : Pt K d) (c : Cfg K) (target : Pt K d → XF K) : Sampler K d → Prop
  | new : Reach lo hi c target (reset lo hi)
  | call {S S' : Sampler K d} {n : ℕ} {its : ℕ → Iter K d} : Reach lo hi c target S →
      importanceSample c target n its S = .ok S' → Reach lo hi c target S'

end HiD
end Verif
