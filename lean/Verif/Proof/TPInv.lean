import Verif.Proof.TPGeom
import Mathlib.Data.List.Basic
import Mathlib.Tactic.Push

set_option linter.unusedSectionVars false
set_option autoImplicit false

namespace Verif

variable {K : Type*} [Field K] [LinearOrder K] [IsStrictOrderedRing K] {d : ℕ}

namespace TPTree

/-- Consistency of the bookkeeping arrays (structural part). -/
structure WF (T : TPTree K d) : Prop where
  idx : ∀ (i : ℕ) (n : TPNode K d), T.nodes[i]? = some n → n.nodeIdx = i
  leafPos : ∀ (j p : ℕ), T.leaves[j]? = some p → ∃ n, T.nodes[p]? = some n ∧ n.leafIdx = (j : ℤ)
  leafOf : ∀ (i : ℕ) (n : TPNode K d), T.nodes[i]? = some n → n.leafIdx = -1 ∨ ∃ j : ℕ, n.leafIdx = (j : ℤ) ∧ T.leaves[j]? = some i
  mask : T.leavesIdx = T.nodes.map fun n => n.isLeaf
  centers : T.centers = T.nodes.map fun n => n.center
  radii : T.radii = T.nodes.map fun n => n.radius
  lenS : T.samples.length = T.nodes.length
  lenW : T.weights.length = T.nodes.length
  del : ∀ (i : ℕ) (n : TPNode K d), T.nodes[i]? = some n → n.leafIdx = -1 → n.histDeleted = true

/-- The part of a node that sampling and weighing never change. -/
def key (n : TPNode K d) : Pt K d × K × List ℕ × ℤ × ℕ × ℕ × Bool :=
  (n.center, n.radius, n.children, n.leafIdx, n.nodeIdx, n.level, n.histDeleted)

/-- Two trees with the same structure, that differ only in samples, weights, values and histories. -/
structure Same (T T' : TPTree K d) : Prop where
  nodes : T'.nodes.map key = T.nodes.map key
  leaves : T'.leaves = T.leaves
  centers : T'.centers = T.centers
  radii : T'.radii = T.radii
  leavesIdx : T'.leavesIdx = T.leavesIdx
  lenS : T'.samples.length = T.samples.length
  lenW : T'.weights.length = T.weights.length

theorem Same.refl (T : TPTree K d) : Same T T := ⟨rfl, rfl, rfl, rfl, rfl, rfl, rfl⟩

theorem Same.trans {T T' T'' : TPTree K d} (h : Same T T') (h' : Same T' T'') : Same T T'' :=
  ⟨h'.nodes.trans h.nodes, h'.leaves.trans h.leaves, h'.centers.trans h.centers, h'.radii.trans h.radii,
   h'.leavesIdx.trans h.leavesIdx, h'.lenS.trans h.lenS, h'.lenW.trans h.lenW⟩

theorem Same.symm {T T' : TPTree K d} (h : Same T T') : Same T' T :=
  ⟨h.nodes.symm, h.leaves.symm, h.centers.symm, h.radii.symm, h.leavesIdx.symm, h.lenS.symm, h.lenW.symm⟩

theorem Same.length {T T' : TPTree K d} (h : Same T T') : T'.nodes.length = T.nodes.length := by
  have := congrArg List.length h.nodes
  simpa using this

theorem Same.node {T T' : TPTree K d} (h : Same T T') {i : ℕ} {n : TPNode K d} (hn : T'.nodes[i]? = some n) :
    ∃ m, T.nodes[i]? = some m ∧ key n = key m := by
  have := congrArg (fun l => l[i]?) h.nodes
  simp only [List.getElem?_map, hn, Option.map_some] at this
  cases hm : T.nodes[i]? with
  | none => simp [hm] at this
  | some m => exact ⟨m, rfl, by simpa [hm] using this⟩

theorem key_eq {n m : TPNode K d} (h : key n = key m) : n.center = m.center ∧ n.radius = m.radius ∧
    n.children = m.children ∧ n.leafIdx = m.leafIdx ∧ n.nodeIdx = m.nodeIdx ∧ n.level = m.level ∧
    n.histDeleted = m.histDeleted := by
  simpa [key] using h

theorem Same.inv {T T' : TPTree K d} (h : Same T T') (I : WF T) : WF T' where
  idx i n hn := by
    obtain ⟨m, hm, hk⟩ := h.node hn
    rw [(key_eq hk).2.2.2.2.1]; exact I.idx i m hm
  leafPos j p hp := by
    rw [h.leaves] at hp
    obtain ⟨n, hn, hl⟩ := I.leafPos j p hp
    obtain ⟨m, hm, hk⟩ := h.symm.node hn
    exact ⟨m, hm, by rw [← (key_eq hk).2.2.2.1]; exact hl⟩
  leafOf i n hn := by
    obtain ⟨m, hm, hk⟩ := h.node hn
    rw [(key_eq hk).2.2.2.1, h.leaves]; exact I.leafOf i m hm
  mask := by
    rw [h.leavesIdx, I.mask]
    have := congrArg (List.map fun k => k.2.2.2.1 != -1) h.nodes
    simpa [Function.comp_def, key, TPNode.isLeaf] using this.symm
  centers := by
    rw [h.centers, I.centers]
    have := congrArg (List.map fun k => k.1) h.nodes
    simpa [Function.comp_def, key] using this.symm
  radii := by
    rw [h.radii, I.radii]
    have := congrArg (List.map fun k => k.2.1) h.nodes
    simpa [Function.comp_def, key] using this.symm
  lenS := by rw [h.lenS, I.lenS, h.length]
  lenW := by rw [h.lenW, I.lenW, h.length]
  del i n hn hl := by
    obtain ⟨m, hm, hk⟩ := h.node hn
    rw [(key_eq hk).2.2.2.2.2.2]
    exact I.del i m hm (by rw [← (key_eq hk).2.2.2.1]; exact hl)

/-! ## Expansion -/

theorem length_childCenters (n : TPNode K d) : (childCenters n).length = 2 ^ d := by
  simp [childCenters, length_signVecs]

theorem length_newNodes (T : TPTree K d) (n : TPNode K d) : (newNodes T n).length = 2 ^ d := by
  simp [newNodes, length_childCenters]

/-- The children as finally stored. -/
def childAt (T : TPTree K d) (n : TPNode K d) (t : ℕ) (c : Pt K d) : TPNode K d :=
  TPNode.new c (n.radius / 2) (T.nodes.length + t)
    (if t = 0 then n.leafIdx else (T.leaves.length : ℤ) + t - 1) (n.level + 1)
    (n.weight / XF.fin (((2 ^ d : ℕ) : K)))

/-- The list of the children as finally stored. -/
def kids (T : TPTree K d) (n : TPNode K d) : List (TPNode K d) :=
  (childCenters n).zipIdx.map fun (c, i) => childAt T n i c

theorem length_kids (T : TPTree K d) (n : TPNode K d) : (kids T n).length = 2 ^ d := by
  simp [kids, length_childCenters]

theorem kids_getElem? (T : TPTree K d) (n : TPNode K d) (t : ℕ) :
    (kids T n)[t]? = ((childCenters n)[t]?).map fun c => childAt T n t c := by
  simp only [kids, List.getElem?_map, List.getElem?_zipIdx]
  cases (childCenters n)[t]? <;> simp

theorem kids_eq (T : TPTree K d) (n : TPNode K d) :
    takeSlot n.leafIdx (newNodes T n) = kids T n := by
  unfold kids newNodes
  rw [length_childCenters]
  cases h : childCenters n with
  | nil => simp [takeSlot]
  | cons c cs =>
    simp only [List.zipIdx_cons, List.map_cons, childAt, TPNode.new, takeSlot]
    congr 1
    apply List.map_congr_left
    rintro ⟨a, i⟩ hi
    have : 1 ≤ i := by
      have := List.mem_zipIdx hi
      omega
    simp only [show i ≠ 0 by omega, if_false]

/-- The tree after the expansion of `n` (reference `p`), in closed form. -/
theorem insertChildren_eq (T : TPTree K d) (p : ℕ) (n : TPNode K d) :
    insertChildren T p n =
      ({ nodes := (T.nodes ++ kids T n).set p { n with children := List.range' T.nodes.length (2 ^ d)
                                                       leafIdx := -1
                                                       coordsHist := none
                                                       weightHist := none
                                                       histDeleted := true }
         leaves := (T.leaves.set n.leafIdx.toNat T.nodes.length) ++ List.range' (T.nodes.length + 1) (2 ^ d - 1)
         centers := T.centers ++ childCenters n
         radii := T.radii ++ List.replicate (2 ^ d) (n.radius / 2)
         samples := T.samples ++ List.replicate (2 ^ d) (fun _ => 0)
         weights := T.weights ++ List.replicate (2 ^ d) (XF.fin 0)
         leavesIdx := (T.leavesIdx ++ List.replicate (2 ^ d) true).set n.nodeIdx false },
       List.range' T.nodes.length (2 ^ d)) := by
  have h2 : (List.range' T.nodes.length (2 ^ d)).tail = List.range' (T.nodes.length + 1) (2 ^ d - 1) := by
    rw [List.tail_range']
  unfold insertChildren
  simp only [kids_eq, length_newNodes, h2]

theorem isLeaf_iff (n : TPNode K d) : n.isLeaf = true ↔ n.leafIdx ≠ -1 := by
  simp [TPNode.isLeaf]

theorem WF.leafSlot {T : TPTree K d} (I : WF T) {p : ℕ} {n : TPNode K d} (hn : T.nodes[p]? = some n)
    (hl : n.isLeaf = true) : ∃ j : ℕ, n.leafIdx = (j : ℤ) ∧ T.leaves[j]? = some p := by
  rcases I.leafOf p n hn with h | h
  · exact absurd h ((isLeaf_iff n).1 hl)
  · exact h

theorem getElem?_range'' (s n i : ℕ) : (List.range' s n)[i]? = if i < n then some (s + i) else none := by
  split_ifs with h
  · rw [List.getElem?_range' h]; simp
  · simp; omega

theorem set_self_of_getElem? {α : Type*} {l : List α} {i : ℕ} {a : α} (h : l[i]? = some a) : l.set i a = l := by
  apply List.ext_getElem?
  intro k
  rw [List.getElem?_set]
  split_ifs with h1 h2
  · rw [← h1, h]
  · subst h1; simp; omega
  · rfl

theorem kids_center (T : TPTree K d) (n : TPNode K d) : (kids T n).map (fun m => m.center) = childCenters n := by
  unfold kids
  rw [List.map_map]
  have : ((fun m : TPNode K d => m.center) ∘ fun (x : Pt K d × ℕ) => match x with | (c, i) => childAt T n i c)
      = Prod.fst := by
    funext ⟨c, i⟩; rfl
  rw [this, List.zipIdx_map_fst]

theorem kids_radius (T : TPTree K d) (n : TPNode K d) :
    (kids T n).map (fun m => m.radius) = List.replicate (2 ^ d) (n.radius / 2) := by
  rw [List.eq_replicate_iff]
  refine ⟨by simp [length_kids], ?_⟩
  intro b hb
  obtain ⟨m, hm, rfl⟩ := List.mem_map.1 hb
  obtain ⟨⟨c, i⟩, hci, rfl⟩ := List.mem_map.1 hm
  rfl

theorem insertChildren_wf {T : TPTree K d} (I : WF T) {p : ℕ} {n : TPNode K d} (hn : T.nodes[p]? = some n)
    (hl : n.isLeaf = true) : WF (insertChildren T p n).1 := by
  obtain ⟨j, hj, hjp⟩ := I.leafSlot hn hl
  have hpN : p < T.nodes.length := (List.getElem?_eq_some_iff.1 hn).1
  have hjL : j < T.leaves.length := (List.getElem?_eq_some_iff.1 hjp).1
  have hni : n.nodeIdx = p := I.idx p n hn
  have hpow : 0 < 2 ^ d := by positivity
  rw [insertChildren_eq]
  have hjt : n.leafIdx.toNat = j := by rw [hj]; simp
  set N := T.nodes.length with hN
  set L := T.leaves.length with hL
  set n' : TPNode K d := { n with children := List.range' N (2 ^ d), leafIdx := -1, coordsHist := none,
                                  weightHist := none, histDeleted := true } with hn'
  have hlk := length_kids T n
  have hlc := length_childCenters n
  -- lookup in the new node list
  have look : ∀ i m, ((T.nodes ++ kids T n).set p n')[i]? = some m →
      (i = p ∧ m = n') ∨ (i ≠ p ∧ i < N ∧ T.nodes[i]? = some m) ∨
      (∃ t c, i = N + t ∧ t < 2 ^ d ∧ m = childAt T n t c) := by
    intro i m hm
    rw [List.getElem?_set] at hm
    split_ifs at hm with h1 h2
    · left
      simp only [Option.some.injEq] at hm
      exact ⟨h1.symm, hm.symm⟩
    · right
      by_cases hi : i < N
      · left
        rw [List.getElem?_append_left hi] at hm
        exact ⟨fun h => h1 h.symm, hi, hm⟩
      · right
        rw [List.getElem?_append_right (by omega), kids_getElem?] at hm
        cases hc : (childCenters n)[i - N]? with
        | none => rw [← hN, hc] at hm; simp at hm
        | some c =>
          have hlt : i - N < 2 ^ d := by
            have := (List.getElem?_eq_some_iff.1 hc).1
            omega
          rw [← hN, hc] at hm
          refine ⟨i - N, c, by omega, hlt, ?_⟩
          simpa using hm.symm
  -- the children are there
  have lookc : ∀ t, t < 2 ^ d → ∃ c, ((T.nodes ++ kids T n).set p n')[N + t]? = some (childAt T n t c) := by
    intro t ht
    refine ⟨(childCenters n)[t]'(by omega), ?_⟩
    rw [List.getElem?_set_ne (by omega), List.getElem?_append_right (by omega), kids_getElem?]
    simp only [← hN, Nat.add_sub_cancel_left]
    rw [List.getElem?_eq_getElem (by omega)]
    rfl
  refine ⟨?_, ?_, ?_, ?_, ?_, ?_, ?_, ?_, ?_⟩
  · -- idx
    intro i m hm
    rcases look i m hm with ⟨rfl, rfl⟩ | ⟨_, _, h⟩ | ⟨t, c, rfl, _, rfl⟩
    · exact hni
    · exact I.idx i m h
    · rfl
  · -- leafPos
    intro k q hq
    simp only at hq ⊢
    rw [hjt] at hq
    by_cases hk : k < L
    · rw [List.getElem?_append_left (by simpa using hk), List.getElem?_set] at hq
      split_ifs at hq with h1
      · obtain rfl : N = q := by simpa using hq
        obtain ⟨c, hc⟩ := lookc 0 hpow
        refine ⟨_, by simpa using hc, ?_⟩
        simp [childAt, TPNode.new, hj, h1]
      · obtain ⟨m, hm, hml⟩ := I.leafPos k q hq
        have hqp : q ≠ p := by
          rintro rfl
          rw [hn] at hm
          obtain rfl : n = m := by simpa using hm
          rw [hj] at hml
          exact h1 (by exact_mod_cast hml)
        have hqN : q < N := (List.getElem?_eq_some_iff.1 hm).1
        refine ⟨m, ?_, hml⟩
        rw [List.getElem?_set_ne (fun h => hqp h.symm), List.getElem?_append_left hqN]
        exact hm
    · rw [List.getElem?_append_right (by simpa using hk), getElem?_range''] at hq
      simp only [List.length_set, ← hL] at hq
      have hlt : k - L < 2 ^ d - 1 := by
        by_contra h
        rw [if_neg h] at hq; simp at hq
      rw [if_pos hlt] at hq
      simp only [Option.some.injEq] at hq
      obtain ⟨c, hc⟩ := lookc (k - L + 1) (by omega)
      refine ⟨_, by rw [← hq, ← hc]; congr 1; omega, ?_⟩
      simp only [childAt, TPNode.new, Nat.add_eq_zero_iff, one_ne_zero, and_false, if_false, ← hL]
      push_cast
      omega
  · -- leafOf
    intro i m hm
    simp only at hm ⊢
    rw [hjt]
    rcases look i m hm with ⟨rfl, rfl⟩ | ⟨hip, hiN, h⟩ | ⟨t, c, rfl, ht, rfl⟩
    · left; rfl
    · rcases I.leafOf i m h with h1 | ⟨k, hk1, hk2⟩
      · exact Or.inl h1
      · right
        have hkL : k < L := (List.getElem?_eq_some_iff.1 hk2).1
        refine ⟨k, hk1, ?_⟩
        rw [List.getElem?_append_left (by simpa using hkL), List.getElem?_set_ne]
        · exact hk2
        · rintro rfl
          rw [hjp] at hk2
          exact hip (by simpa using hk2.symm)
    · right
      by_cases h0 : t = 0
      · subst h0
        refine ⟨j, by simp [childAt, TPNode.new, hj], ?_⟩
        rw [List.getElem?_append_left (by simpa using hjL), List.getElem?_set_self hjL]
        rfl
      · refine ⟨L + t - 1, ?_, ?_⟩
        · simp only [childAt, TPNode.new, h0, if_false, ← hL]
          omega
        · rw [List.getElem?_append_right (by simp; omega), getElem?_range'']
          simp only [List.length_set, ← hL]
          rw [if_pos (by omega)]
          congr 1
          omega
  · -- mask
    simp only
    rw [hni, List.map_set, List.map_append, I.mask]
    have hkm : (kids T n).map (fun m => m.isLeaf) = List.replicate (2 ^ d) true := by
      rw [List.eq_replicate_iff]
      refine ⟨by simp [hlk], ?_⟩
      intro b hb
      obtain ⟨m, hm, rfl⟩ := List.mem_map.1 hb
      obtain ⟨⟨c, i⟩, hci, rfl⟩ := List.mem_map.1 hm
      rw [isLeaf_iff]
      simp only [childAt, TPNode.new]
      split_ifs with h0
      · rw [hj]; omega
      · omega
    rw [hkm]
    rfl
  · -- centers
    simp only
    rw [List.map_set, List.map_append, I.centers]
    rw [kids_center]
    symm
    apply set_self_of_getElem?
    rw [List.getElem?_append_left (by simpa using hpN), List.getElem?_map, hn]
    rfl
  · simp only
    rw [List.map_set, List.map_append, I.radii, kids_radius]
    symm
    apply set_self_of_getElem?
    rw [List.getElem?_append_left (by simpa using hpN), List.getElem?_map, hn]
    rfl
  · simp [I.lenS, hlk]
  · simp [I.lenW, hlk]
  · intro i m hm hl
    rcases look i m hm with ⟨rfl, rfl⟩ | ⟨hip, hiN, h⟩ | ⟨t, c, rfl, ht, rfl⟩
    · rfl
    · exact I.del i m h hl
    · exfalso
      simp only [childAt, TPNode.new] at hl
      split_ifs at hl with h0
      · rw [hj] at hl; omega
      · omega

end TPTree
end Verif
