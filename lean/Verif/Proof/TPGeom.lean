import Verif.Model.TreePyramid
import Mathlib.Data.List.Nodup
import Mathlib.Data.Fin.VecNotation
import Mathlib.Tactic.Linarith
import Mathlib.Tactic.Ring
import Mathlib.Tactic.Positivity
import Mathlib.Algebra.Order.Field.Basic

set_option linter.unusedSectionVars false
set_option autoImplicit false

namespace Verif

variable {K : Type*} [Field K] [LinearOrder K] [IsStrictOrderedRing K] {d : ℕ}

theorem length_signVecs : ∀ d, (signVecs (K := K) d).length = 2 ^ d
  | 0 => rfl
  | d + 1 => by
    simp [signVecs, length_signVecs d]
    ring

theorem mem_signVecs : ∀ {d} (s : Pt K d), s ∈ signVecs d ↔ ∀ i, s i = -1 ∨ s i = 1
  | 0, s => by
    simp [signVecs]
    funext i; exact i.elim0
  | d + 1, s => by
    simp only [signVecs, List.flatMap_cons, List.flatMap_nil, List.append_nil, List.mem_append,
      List.mem_map, Fin.forall_fin_succ]
    constructor
    · rintro (⟨v, hv, rfl⟩ | ⟨v, hv, rfl⟩)
      · exact ⟨Or.inl rfl, by simpa using (mem_signVecs v).1 hv⟩
      · exact ⟨Or.inr rfl, by simpa using (mem_signVecs v).1 hv⟩
    · rintro ⟨h0, h⟩
      have hs : (Fin.cons (s 0) (fun i => s i.succ) : Pt K (d+1)) = s := by
        funext i
        refine Fin.cases ?_ ?_ i <;> simp
      rcases h0 with h0 | h0
      · left
        exact ⟨fun i => s i.succ, (mem_signVecs _).2 h, by rw [← h0]; exact hs⟩
      · right
        exact ⟨fun i => s i.succ, (mem_signVecs _).2 h, by rw [← h0]; exact hs⟩

theorem nodup_signVecs : ∀ d, (signVecs (K := K) d).Nodup
  | 0 => by simp [signVecs]
  | d + 1 => by
    simp only [signVecs, List.flatMap_cons, List.flatMap_nil, List.append_nil]
    have hinj : ∀ a : K, Function.Injective fun v : Pt K d => (Fin.cons a v : Pt K (d+1)) := by
      intro a v w h
      funext i
      have := congrFun h i.succ
      simpa using this
    refine List.Nodup.append ((nodup_signVecs d).map (hinj _)) ((nodup_signVecs d).map (hinj _)) ?_
    intro v hv hw
    obtain ⟨a, _, rfl⟩ := List.mem_map.1 hv
    obtain ⟨b, _, hb⟩ := List.mem_map.1 hw
    have := congrFun hb 0
    simp only [Fin.cons_zero] at this
    have : (1:K) ≠ -1 := by
      have : (0:K) < 1 := one_pos
      intro h; linarith
    contradiction

/-- Half open cube `[c-r, c+r)`. -/
def InHalfOpen (c : Pt K d) (r : K) (x : Pt K d) : Prop := ∀ i, c i - r ≤ x i ∧ x i < c i + r

instance (c : Pt K d) (r : K) (x : Pt K d) : Decidable (InHalfOpen c r x) := by
  unfold InHalfOpen; infer_instance

/-- The orthant of `x` with respect to the centre `c`. -/
def orthant (c x : Pt K d) : Pt K d := fun i => if x i < c i then -1 else 1

theorem orthant_mem (c x : Pt K d) : orthant c x ∈ signVecs d := by
  rw [mem_signVecs]
  intro i
  unfold orthant
  split_ifs <;> simp

theorem halfOpen_child_iff (c : Pt K d) (r : K) (x s : Pt K d) (hs : s ∈ signVecs d) :
    InHalfOpen (fun i => c i + r / 2 * s i) (r / 2) x ↔ InHalfOpen c r x ∧ s = orthant c x := by
  rw [mem_signVecs] at hs
  constructor
  · intro h
    constructor
    · intro i
      have h1 := h i
      simp only at h1
      rcases hs i with e | e <;> rw [e] at h1 <;> constructor <;> linarith
    · funext i
      have h1 := h i
      simp only at h1
      unfold orthant
      rcases hs i with e | e <;> rw [e] at h1 ⊢
      · rw [if_pos (by linarith)]
      · rw [if_neg (by linarith)]
  · rintro ⟨h, rfl⟩ i
    have h1 := h i
    simp only [orthant]
    split_ifs with hx <;> constructor <;> linarith

/-- Exactly one child of a half open cube contains a given point of the cube, no child contains a point outside. -/
theorem countP_children (c : Pt K d) (r : K) (x : Pt K d) :
    ((signVecs d).countP fun s => decide (InHalfOpen (fun i => c i + r / 2 * s i) (r / 2) x))
      = if InHalfOpen c r x then 1 else 0 := by
  by_cases h : InHalfOpen c r x
  · rw [if_pos h]
    have : (signVecs d).countP (fun s => decide (InHalfOpen (fun i => c i + r / 2 * s i) (r / 2) x))
        = (signVecs d).countP (fun s => s == orthant c x) := by
      apply List.countP_congr
      intro s hs
      simp [halfOpen_child_iff c r x s hs, h]
    rw [this]
    exact List.count_eq_one_of_mem (nodup_signVecs d) (orthant_mem c x)
  · rw [if_neg h, List.countP_eq_zero]
    intro s hs
    simp [halfOpen_child_iff c r x s hs, h]

/-- Every point of a closed cube lies in a closed child. -/
theorem exists_closed_child (c : Pt K d) (r : K) (x : Pt K d)
    (h : ∀ i, c i - r ≤ x i ∧ x i ≤ c i + r) :
    ∃ s ∈ signVecs d, ∀ i, (c i + r / 2 * s i) - r / 2 ≤ x i ∧ x i ≤ (c i + r / 2 * s i) + r / 2 := by
  refine ⟨orthant c x, orthant_mem c x, ?_⟩
  intro i
  have h1 := h i
  unfold orthant
  split_ifs with hx <;> constructor <;> linarith

/-- A child is contained in its parent. -/
theorem closed_child_subset (c : Pt K d) (r : K) (hr : 0 ≤ r) (x s : Pt K d) (hs : s ∈ signVecs d)
    (h : ∀ i, (c i + r / 2 * s i) - r / 2 ≤ x i ∧ x i ≤ (c i + r / 2 * s i) + r / 2) :
    ∀ i, c i - r ≤ x i ∧ x i ≤ c i + r := by
  rw [mem_signVecs] at hs
  intro i
  have h1 := h i
  rcases hs i with e | e <;> rw [e] at h1 <;> constructor <;> linarith

end Verif
