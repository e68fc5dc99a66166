import Verif.Proof.TPInv
import Mathlib.Algebra.BigOperators.Group.List.Basic

set_option linter.unusedSectionVars false
set_option autoImplicit false

namespace Verif

variable {K : Type*} [Field K] [LinearOrder K] [IsStrictOrderedRing K] {d : ℕ}

namespace TPTree

/-! ## Operations that keep the structure -/

theorem map_modify_of_eq {α β : Type*} (f : α → α) (g : α → β) (h : ∀ a, g (f a) = g a) (l : List α) (i : ℕ) :
    (l.modify i f).map g = l.map g := by
  apply List.ext_getElem?
  intro k
  simp only [List.getElem?_map, List.getElem?_modify]
  cases l[k]? with
  | none => simp
  | some a => by_cases hk : i = k <;> simp [hk, h]

theorem sampleNode_same {T T' : TPTree K d} {p : ℕ} {x : Pt K d} (h : T.sampleNode p x = .ok T') : Same T T' := by
  unfold sampleNode at h
  split at h
  · cases h
  · split_ifs at h
    cases h
    exact ⟨map_modify_of_eq (fun n => n.sample x) key (fun _ => rfl) _ _, rfl, rfl, rfl, rfl, by simp, rfl⟩

theorem weighNode_same {T T' : TPTree K d} {p : ℕ} {t q : Pt K d → XF K} (h : T.weighNode p t q = .ok T') :
    Same T T' := by
  unfold weighNode at h
  split at h
  · cases h
  · split_ifs at h
    cases h
    exact ⟨map_modify_of_eq (fun n => n.weigh t q) key (fun _ => rfl) _ _, rfl, rfl, rfl, rfl, rfl, by simp⟩

theorem WF.lenMask {T : TPTree K d} (I : WF T) : T.leavesIdx.length = T.nodes.length := by
  rw [I.mask]; simp

theorem selfNormalize_same {T : TPTree K d} (I : WF T) : Same T T.selfNormalize := by
  unfold selfNormalize
  simp only
  split_ifs
  · refine ⟨rfl, rfl, rfl, rfl, rfl, rfl, ?_⟩
    simp [maskUpdate, I.lenMask, I.lenW]
  · exact Same.refl T

theorem resampleArrays_same {T : TPTree K d} (I : WF T) (t : Pt K d → XF K) (u : ℕ → Pt K d) :
    Same T (T.resampleArrays t u) := by
  refine ⟨rfl, rfl, rfl, rfl, rfl, ?_, ?_⟩
  · simp [resampleArrays, I.lenMask, I.lenS, I.centers, I.radii]
  · simp [resampleArrays, I.lenMask, I.lenW, I.centers, I.radii]

theorem refreshLeaf_same {T T' : TPTree K d} {p : ℕ} (h : T.refreshLeaf p = .ok T') : Same T T' := by
  unfold refreshLeaf at h
  split at h
  · cases h
  · rename_i n hn
    split at h
    · split at h
      · cases h
        refine ⟨?_, rfl, rfl, rfl, rfl, rfl, rfl⟩
        simp only [List.map_set]
        apply set_self_of_getElem?
        rw [List.getElem?_map, hn]
        rfl
      · cases h
    · cases h

theorem foldlM_same {α : Type*} (f : TPTree K d → α → Except PyErr (TPTree K d))
    (hf : ∀ T a T', f T a = .ok T' → Same T T') :
    ∀ (l : List α) (T T' : TPTree K d), l.foldlM f T = .ok T' → Same T T'
  | [], T, T', h => by
    simp only [List.foldlM_nil, pure, Except.pure] at h
    cases h
    exact Same.refl T
  | a :: l, T, T', h => by
    simp only [List.foldlM_cons, bind, Except.bind] at h
    cases ha : f T a with
    | error e => simp [ha] at h
    | ok T1 =>
      rw [ha] at h
      exact (hf T a T1 ha).trans (foldlM_same f hf l T1 T' h)

theorem resample_same {T T' : TPTree K d} (I : WF T) {t : Pt K d → XF K} {u : ℕ → Pt K d}
    (h : T.resample t u = .ok T') : Same T T' := by
  unfold resample at h
  have h1 := resampleArrays_same I t u
  have h2 := selfNormalize_same (h1.inv I)
  exact (h1.trans h2).trans (foldlM_same _ (fun _ _ _ h => refreshLeaf_same h) _ _ _ h)

/-! ## Leaf boxes -/

/-- Center and radius of the node with reference `p`. -/
def box (T : TPTree K d) (p : ℕ) : Pt K d × K :=
  match T.nodes[p]? with
  | some n => (n.center, n.radius)
  | none => (fun _ => 0, 0)

/-- Boxes of the leaves in leaf order. -/
def leafBoxes (T : TPTree K d) : List (Pt K d × K) := T.leaves.map T.box

theorem Same.box {T T' : TPTree K d} (h : Same T T') (p : ℕ) : T'.box p = T.box p := by
  unfold TPTree.box
  cases hn : T'.nodes[p]? with
  | none =>
    have : T.nodes[p]? = none := by
      rw [List.getElem?_eq_none_iff] at hn ⊢
      rw [← h.length]; exact hn
    simp [this]
  | some n =>
    obtain ⟨m, hm, hk⟩ := h.node hn
    simp [hm, (key_eq hk).1, (key_eq hk).2.1]

theorem Same.leafBoxes {T T' : TPTree K d} (h : Same T T') : T'.leafBoxes = T.leafBoxes := by
  unfold TPTree.leafBoxes
  rw [h.leaves]
  exact List.map_congr_left fun p _ => h.box p

theorem insertChildren_leafBoxes {T : TPTree K d} (I : WF T) {p : ℕ} {n : TPNode K d} (hn : T.nodes[p]? = some n)
    {j : ℕ} (hj : n.leafIdx = (j : ℤ)) :
    ∃ c0 cs, childCenters n = c0 :: cs ∧
      (insertChildren T p n).1.leafBoxes
        = T.leafBoxes.set j (c0, n.radius / 2) ++ cs.map fun c => (c, n.radius / 2) := by
  have hlc := length_childCenters n
  have hpow : 0 < 2 ^ d := by positivity
  obtain ⟨c0, cs, hc⟩ : ∃ c0 cs, childCenters n = c0 :: cs := by
    cases h : childCenters n with
    | nil => rw [h] at hlc; simp at hlc; omega
    | cons a b => exact ⟨a, b, rfl⟩
  have hpN : p < T.nodes.length := (List.getElem?_eq_some_iff.1 hn).1
  have hcs : cs.length = 2 ^ d - 1 := by rw [hc] at hlc; simp at hlc; omega
  refine ⟨c0, cs, hc, ?_⟩
  have hjt : n.leafIdx.toNat = j := by rw [hj]; simp
  -- boxes of old references
  have old : ∀ q, q < T.nodes.length → (insertChildren T p n).1.box q = T.box q := by
    intro q hq
    rw [insertChildren_eq]
    unfold box
    simp only
    rw [List.getElem?_set]
    by_cases hqp : p = q
    · subst hqp
      rw [if_pos rfl, if_pos (by simp; omega), hn]
    · rw [if_neg hqp, List.getElem?_append_left hq]
  have new : ∀ t c, (childCenters n)[t]? = some c →
      (insertChildren T p n).1.box (T.nodes.length + t) = (c, n.radius / 2) := by
    intro t c ht
    rw [insertChildren_eq]
    unfold box
    simp only
    rw [List.getElem?_set_ne (by omega), List.getElem?_append_right (by omega), Nat.add_sub_cancel_left,
      kids_getElem?, ht]
    rfl
  unfold leafBoxes
  have hl : (insertChildren T p n).1.leaves
      = (T.leaves.set j T.nodes.length) ++ List.range' (T.nodes.length + 1) (2 ^ d - 1) := by
    rw [insertChildren_eq, hjt]
  rw [hl, List.map_append, List.map_set]
  congr 1
  · have h0 := new 0 c0 (by simp [hc])
    simp only [Nat.add_zero] at h0
    rw [h0]
    congr 1
    apply List.map_congr_left
    intro q hq
    obtain ⟨k, hk⟩ := List.mem_iff_getElem?.1 hq
    obtain ⟨m, hm, _⟩ := I.leafPos k q hk
    exact old q (List.getElem?_eq_some_iff.1 hm).1
  · apply List.ext_getElem?
    intro t
    simp only [List.getElem?_map, getElem?_range'']
    by_cases ht : t < 2 ^ d - 1
    · rw [if_pos ht]
      have h1 := new (t + 1) (cs[t]'(by omega)) (by simp [hc])
      rw [List.getElem?_eq_getElem (by omega)]
      simp only [Option.map_some]
      rw [← h1]
      congr 2
      omega
    · rw [if_neg ht]
      rw [List.getElem?_eq_none (by omega)]
      rfl

theorem sum_map_set {M α : Type*} [AddCommMonoid M] (f : α → M) (l : List α) (j : ℕ) (b a : α)
    (h : l[j]? = some b) : ((l.set j a).map f).sum + f b = (l.map f).sum + f a := by
  induction l generalizing j with
  | nil => simp at h
  | cons x l ih =>
    cases j with
    | zero =>
      simp at h
      subst h
      simp only [List.set_cons_zero, List.map_cons, List.sum_cons]
      rw [add_comm, ← add_assoc, add_right_comm, add_assoc]
    | succ j =>
      simp only [List.set_cons_succ, List.map_cons, List.sum_cons, add_assoc]
      rw [ih j (by simpa using h)]

/-- What an expansion does to sums over the leaf boxes. -/
theorem insertChildren_sum {M : Type*} [AddCommMonoid M] (f : Pt K d × K → M) {T : TPTree K d} (I : WF T) {p : ℕ}
    {n : TPNode K d} (hn : T.nodes[p]? = some n) (hl : n.isLeaf = true) :
    ((insertChildren T p n).1.leafBoxes.map f).sum + f (n.center, n.radius)
      = (T.leafBoxes.map f).sum + ((childCenters n).map fun c => f (c, n.radius / 2)).sum := by
  obtain ⟨j, hj, hjp⟩ := I.leafSlot hn hl
  obtain ⟨c0, cs, hc, hb⟩ := insertChildren_leafBoxes I hn hj
  rw [hb, hc]
  have hbj : T.leafBoxes[j]? = some (n.center, n.radius) := by
    unfold leafBoxes
    rw [List.getElem?_map, hjp]
    simp [box, hn]
  simp only [List.map_append, List.sum_append, List.map_cons, List.sum_cons, List.map_map]
  rw [add_right_comm, sum_map_set f _ _ _ _ hbj, add_assoc]
  rfl

/-- Membership in the new box list. -/
theorem insertChildren_mem {T : TPTree K d} (I : WF T) {p : ℕ} {n : TPNode K d} (hn : T.nodes[p]? = some n)
    (hl : n.isLeaf = true) (b : Pt K d × K) :
    (b ∈ (insertChildren T p n).1.leafBoxes → b ∈ T.leafBoxes ∨ ∃ c ∈ childCenters n, b = (c, n.radius / 2)) ∧
    (b ∈ T.leafBoxes → b = (n.center, n.radius) ∨ b ∈ (insertChildren T p n).1.leafBoxes) ∧
    (∀ c ∈ childCenters n, (c, n.radius / 2) ∈ (insertChildren T p n).1.leafBoxes) := by
  obtain ⟨j, hj, hjp⟩ := I.leafSlot hn hl
  obtain ⟨c0, cs, hc, hb⟩ := insertChildren_leafBoxes I hn hj
  have hbj : T.leafBoxes[j]? = some (n.center, n.radius) := by
    unfold leafBoxes
    rw [List.getElem?_map, hjp]
    simp [box, hn]
  have hjl : j < T.leafBoxes.length := (List.getElem?_eq_some_iff.1 hbj).1
  rw [hb, hc]
  refine ⟨?_, ?_, ?_⟩
  · intro h
    rcases List.mem_append.1 h with h | h
    · rcases List.mem_or_eq_of_mem_set h with h | h
      · exact Or.inl h
      · exact Or.inr ⟨c0, by simp, h⟩
    · obtain ⟨c, hc', rfl⟩ := List.mem_map.1 h
      exact Or.inr ⟨c, by simp [hc'], rfl⟩
  · intro h
    obtain ⟨k, hk⟩ := List.mem_iff_getElem?.1 h
    by_cases hjk : j = k
    · left
      subst hjk
      rw [hbj] at hk
      simpa using hk.symm
    · right
      apply List.mem_append_left
      apply List.mem_iff_getElem?.2
      exact ⟨k, by rw [List.getElem?_set_ne hjk]; exact hk⟩
  · intro c hc'
    rcases List.mem_cons.1 hc' with rfl | h
    · exact List.mem_append_left _ (List.mem_set hjl _)
    · exact List.mem_append_right _ (List.mem_map.2 ⟨c, h, rfl⟩)

/-- The boxes `bs` tile the cube with centre `c` and radius `R`. -/
structure Tiles (c : Pt K d) (R : K) (bs : List (Pt K d × K)) : Prop where
  count : ∀ x, (bs.map fun b => if InHalfOpen b.1 b.2 x then 1 else 0).sum = if InHalfOpen c R x then 1 else 0
  cover : ∀ x : Pt K d, (∀ i, c i - R ≤ x i ∧ x i ≤ c i + R) →
    ∃ b ∈ bs, ∀ i, b.1 i - b.2 ≤ x i ∧ x i ≤ b.1 i + b.2
  sub : ∀ b ∈ bs, ∀ x : Pt K d, (∀ i, b.1 i - b.2 ≤ x i ∧ x i ≤ b.1 i + b.2) → ∀ i, c i - R ≤ x i ∧ x i ≤ c i + R
  radii : ∀ b ∈ bs, ∃ k : ℕ, b.2 = R / 2 ^ k
  vol : (bs.map fun b => (2 * b.2) ^ d).sum = (2 * R) ^ d

theorem sum_ite_eq_countP {α : Type*} (P : α → Prop) [DecidablePred P] (l : List α) :
    (l.map fun a => if P a then 1 else 0).sum = l.countP fun a => decide (P a) := by
  induction l with
  | nil => simp
  | cons a l ih =>
    by_cases h : P a <;> simp [h, ih, List.countP_cons, add_comm]

theorem childCount (n : TPNode K d) (x : Pt K d) :
    ((childCenters n).map fun c => if InHalfOpen c (n.radius / 2) x then 1 else 0).sum
      = if InHalfOpen n.center n.radius x then 1 else 0 := by
  rw [sum_ite_eq_countP]
  unfold childCenters
  rw [List.countP_map]
  exact countP_children n.center n.radius x

theorem insertChildren_tiles {T : TPTree K d} (I : WF T) {p : ℕ} {n : TPNode K d} (hn : T.nodes[p]? = some n)
    (hl : n.isLeaf = true) {c : Pt K d} {R : K} (hR : 0 ≤ R) (h : Tiles c R T.leafBoxes) :
    Tiles c R (insertChildren T p n).1.leafBoxes := by
  have hmem : (n.center, n.radius) ∈ T.leafBoxes := by
    obtain ⟨j, hj, hjp⟩ := I.leafSlot hn hl
    apply List.mem_iff_getElem?.2
    refine ⟨j, ?_⟩
    unfold leafBoxes
    rw [List.getElem?_map, hjp]
    simp [box, hn]
  obtain ⟨k0, hk0⟩ := h.radii _ hmem
  simp only at hk0
  have hr0 : 0 ≤ n.radius := by rw [hk0]; positivity
  refine ⟨?_, ?_, ?_, ?_, ?_⟩
  · intro x
    have := insertChildren_sum (fun b : Pt K d × K => if InHalfOpen b.1 b.2 x then 1 else 0) I hn hl
    simp only [childCount n x, h.count x] at this
    omega
  · intro x hx
    obtain ⟨b, hb, hbx⟩ := h.cover x hx
    rcases (insertChildren_mem I hn hl b).2.1 hb with rfl | hb'
    · obtain ⟨s, hs, hsx⟩ := exists_closed_child n.center n.radius x hbx
      refine ⟨(fun i => n.center i + n.radius / 2 * s i, n.radius / 2), ?_, hsx⟩
      apply (insertChildren_mem I hn hl (n.center, n.radius)).2.2
      exact List.mem_map.2 ⟨s, hs, rfl⟩
    · exact ⟨b, hb', hbx⟩
  · intro b hb x hbx
    rcases (insertChildren_mem I hn hl b).1 hb with hb | ⟨c', hc', rfl⟩
    · exact h.sub b hb x hbx
    · obtain ⟨s, hs, rfl⟩ := List.mem_map.1 hc'
      apply h.sub _ hmem x
      exact closed_child_subset n.center n.radius hr0 x s hs hbx
  · intro b hb
    rcases (insertChildren_mem I hn hl b).1 hb with hb | ⟨c', hc', rfl⟩
    · exact h.radii b hb
    · refine ⟨k0 + 1, ?_⟩
      simp only [hk0]
      rw [pow_succ, div_div]
  · have := insertChildren_sum (fun b : Pt K d × K => (2 * b.2) ^ d) I hn hl
    simp only [h.vol, List.map_const', List.sum_replicate, length_childCenters, nsmul_eq_mul] at this
    have e : ((2 ^ d : ℕ) : K) * (2 * (n.radius / 2)) ^ d = (2 * n.radius) ^ d := by
      push_cast
      rw [← mul_pow]
      congr 1
      ring
    rw [e] at this
    exact add_right_cancel this

end TPTree
end Verif
