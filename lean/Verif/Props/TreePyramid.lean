import Verif.Proof.TPReach
import Mathlib.Algebra.Order.Ring.Rat

/-!
# Properties of the tree pyramid: C26, C27, C29, C32
-/

set_option linter.unusedSectionVars false
set_option autoImplicit false

namespace Verif

variable {K : Type*} [Field K] [LinearOrder K] [IsStrictOrderedRing K] {d : ℕ}

open TPTree

/-- **C26** After any history of operations with `e` expansions: stored indices are positions, the mask marks exactly
the leaves, the caches agree with the nodes, the numbers of nodes and leaves follow from `e`, and every leaf can be
expanded further. -/
theorem C26_bookkeeping {dmin dmax : Pt K d} {ops : List (TPOp K d)} {T : TPTree K d} {e : ℕ}
    (h : TPReach dmin dmax ops T e) :
    (∀ (i : ℕ) (n : TPNode K d), T.nodes[i]? = some n → n.nodeIdx = i) ∧
    (∀ j p : ℕ, T.leaves[j]? = some p → ∃ n : TPNode K d, T.nodes[p]? = some n ∧ n.leafIdx = (j : ℤ)) ∧
    (∀ i : ℕ, T.leavesIdx[i]? = some true ↔ i ∈ T.leaves) ∧
    (∀ (i : ℕ) (n : TPNode K d), T.nodes[i]? = some n → (n.leafIdx ≠ -1 ↔ i ∈ T.leaves)) ∧
    T.leaves.Nodup ∧
    T.leavesIdx.length = T.nodes.length ∧ T.samples.length = T.nodes.length ∧ T.weights.length = T.nodes.length ∧
    T.centers = T.nodes.map (fun n => n.center) ∧ T.radii = T.nodes.map (fun n => n.radius) ∧
    T.nodes.length = 1 + e * 2 ^ d ∧ T.leaves.length = 1 + e * (2 ^ d - 1) ∧
    (∀ p ∈ T.leaves, ∀ nMin : ℕ, ∃ T' refs, T.expand p none nMin = .ok (T', some refs)) := by
  obtain ⟨R, _, _, r⟩ := reached_of h
  have I := r.wf
  have leafIff : ∀ (i : ℕ) (n : TPNode K d), T.nodes[i]? = some n → (n.leafIdx ≠ -1 ↔ i ∈ T.leaves) := by
    intro i n hn
    constructor
    · intro hl
      rcases I.leafOf i n hn with h | ⟨j, _, hj⟩
      · exact absurd h hl
      · exact List.mem_iff_getElem?.2 ⟨j, hj⟩
    · intro hm
      obtain ⟨j, hj⟩ := List.mem_iff_getElem?.1 hm
      obtain ⟨m, hm, hml⟩ := I.leafPos j i hj
      rw [hn] at hm
      obtain rfl : n = m := by simpa using hm
      rw [hml]; omega
  refine ⟨I.idx, I.leafPos, ?_, leafIff, ?_, I.lenMask, I.lenS, I.lenW, I.centers, I.radii, r.nNodes, r.nLeaves, ?_⟩
  · intro i
    rw [I.mask, List.getElem?_map]
    cases hn : T.nodes[i]? with
    | none =>
      simp only [Option.map_none, false_iff, reduceCtorEq]
      intro hm
      obtain ⟨j, hj⟩ := List.mem_iff_getElem?.1 hm
      obtain ⟨m, hm, _⟩ := I.leafPos j i hj
      rw [hn] at hm; simp at hm
    | some n =>
      simp only [Option.map_some, Option.some.injEq]
      rw [isLeaf_iff]
      exact leafIff i n hn
  · rw [List.nodup_iff_getElem?_ne_getElem?]
    intro i j hij hjl heq
    rw [List.getElem?_eq_getElem hjl] at heq
    obtain ⟨n, hn, h1⟩ := I.leafPos i _ heq
    obtain ⟨m, hm, h2⟩ := I.leafPos j _ (List.getElem?_eq_getElem hjl)
    rw [hn] at hm
    obtain rfl : n = m := by simpa using hm
    rw [h1] at h2
    omega
  · intro p hp nMin
    obtain ⟨j, hj⟩ := List.mem_iff_getElem?.1 hp
    obtain ⟨n, hn, hl⟩ := I.leafPos j p hj
    have : n.isLeaf = true := by rw [isLeaf_iff, hl]; omega
    exact ⟨(insertChildren T p n).1, (insertChildren T p n).2, by simp [TPTree.expand, hn, this, shouldExpand]⟩

/-- A history with two expansions in dimension 2 (9 nodes, 7 leaves), interleaved with sampling. -/
example : ∃ T e, TPReach (K := ℚ) (d := 2) (fun _ => 0) (fun _ => 1)
    [.expand 0 none 5, .sample 3 (fun _ => 1/4), .normalize, .expand 2 none 5] T e ∧
    decide (e = 2 ∧ T.nodes.length = 9 ∧ T.leaves = [1, 5, 3, 4, 6, 7, 8]) = true :=
  of_reachCheck (by decide +kernel)

/-- **C27** After any history of operations the leaves tile the root cube, which contains the given box: every point of
the closed root cube is in a closed leaf, a point is in the interior of at most one leaf, leaves stay inside the root
cube and their volumes add up to its volume. The root cube is centred in the box, with the largest half range as radius. -/
theorem C27_tiling {dmin dmax : Pt K d} (hle : ∀ i, dmin i ≤ dmax i) {ops : List (TPOp K d)} {T : TPTree K d} {e : ℕ}
    (h : TPReach dmin dmax ops T e) :
    ∃ root : TPNode K d, T.nodes[0]? = some root ∧
      (∀ x : Pt K d, (∀ i, dmin i ≤ x i ∧ x i ≤ dmax i) → root.contains x) ∧
      (∀ x : Pt K d, root.contains x → ∃ p ∈ T.leaves, ∃ n, T.nodes[p]? = some n ∧ n.contains x) ∧
      (∀ p ∈ T.leaves, ∀ n, T.nodes[p]? = some n → ∀ x : Pt K d, n.contains x → root.contains x) ∧
      (∀ p ∈ T.leaves, ∀ q ∈ T.leaves, ∀ n m : TPNode K d, T.nodes[p]? = some n → T.nodes[q]? = some m →
        ∀ x : Pt K d, (∀ i, n.center i - n.radius < x i ∧ x i < n.center i + n.radius) →
          (∀ i, m.center i - m.radius < x i ∧ x i < m.center i + m.radius) → p = q) ∧
      (T.leaves.map fun p => match T.nodes[p]? with
        | some n => (2 * n.radius) ^ d
        | none => 0).sum = (2 * root.radius) ^ d := by
  obtain ⟨R, ⟨i0, hi0⟩, hR2, r⟩ := reached_of h
  have hR : 0 ≤ R := by
    rw [hi0]
    have := hle i0
    linarith
  have t := r.tiles hR
  have I := r.wf
  obtain ⟨root, hroot, hc, hrad, _⟩ := r.root
  refine ⟨root, hroot, ?_, ?_, ?_, ?_, ?_⟩
  · intro x hx i
    have h1 := hR2 i
    have h2 := hx i
    rw [hc, hrad]
    constructor <;> simp only <;> linarith
  · intro x hx
    obtain ⟨b, hb, hbx⟩ := t.cover x (by intro i; have := hx i; rw [hc, hrad] at this; exact this)
    obtain ⟨p, hp, rfl⟩ := List.mem_map.1 hb
    obtain ⟨j, hj⟩ := List.mem_iff_getElem?.1 hp
    obtain ⟨n, hn, _⟩ := I.leafPos j p hj
    refine ⟨p, hp, n, hn, ?_⟩
    simp only [box, hn] at hbx
    exact hbx
  · intro p hp n hn x hx
    have := t.sub (T.box p) (List.mem_map.2 ⟨p, hp, rfl⟩) x (by simp only [box, hn]; exact hx)
    intro i
    rw [hc, hrad]
    exact this i
  · intro p hp q hq n m hn hm x hnx hmx
    by_contra hpq
    have hcount := t.count x
    have hle : (T.leafBoxes.map fun b => if InHalfOpen b.1 b.2 x then 1 else 0).sum ≤ 1 := by
      rw [hcount]; split_ifs <;> omega
    obtain ⟨j, hj⟩ := List.mem_iff_getElem?.1 hp
    obtain ⟨k, hk⟩ := List.mem_iff_getElem?.1 hq
    have hjk : j ≠ k := by
      rintro rfl
      rw [hj] at hk
      exact hpq (by simpa using hk)
    have key : ∀ (l : List ℕ) (f : ℕ → ℕ) (j k : ℕ), j ≠ k → l[j]? = some p → l[k]? = some q →
        f p = 1 → f q = 1 → 2 ≤ (l.map f).sum := by
      intro l f
      have one : ∀ (l : List ℕ) (j a : ℕ), l[j]? = some a → f a = 1 → 1 ≤ (l.map f).sum := by
        intro l j a hja hfa
        have := List.single_le_sum (l := l.map f) (by simp) 1
          (by rw [← hfa]; exact List.mem_map.2 ⟨a, List.mem_iff_getElem?.2 ⟨j, hja⟩, rfl⟩)
        exact this
      induction l with
      | nil => intro j k _ h; simp at h
      | cons a l ih =>
        intro j k hjk hj hk hfp hfq
        simp only [List.map_cons, List.sum_cons]
        cases j with
        | zero =>
          cases k with
          | zero => exact absurd rfl hjk
          | succ k =>
            have := one l k q (by simpa using hk) hfq
            have e : a = p := by simpa using hj
            rw [e, hfp]; omega
        | succ j =>
          cases k with
          | zero =>
            have := one l j p (by simpa using hj) hfp
            have e : a = q := by simpa using hk
            rw [e, hfq]; omega
          | succ k =>
            have := ih j k (by omega) (by simpa using hj) (by simpa using hk) hfp hfq
            omega
    have := key T.leaves (fun p => if InHalfOpen (T.box p).1 (T.box p).2 x then 1 else 0) j k hjk hj hk
      (by
        simp only [box, hn]
        rw [if_pos]
        intro i
        exact ⟨(hnx i).1.le, (hnx i).2⟩)
      (by
        simp only [box, hm]
        rw [if_pos]
        intro i
        exact ⟨(hmx i).1.le, (hmx i).2⟩)
    unfold leafBoxes at hle
    rw [List.map_map] at hle
    have e2 : ((fun b : Pt K d × K => if InHalfOpen b.1 b.2 x then 1 else 0) ∘ T.box)
        = fun p => if InHalfOpen (T.box p).1 (T.box p).2 x then 1 else 0 := rfl
    rw [e2] at hle
    omega
  · rw [hrad, ← t.vol]
    unfold leafBoxes
    rw [List.map_map]
    congr 1
    apply List.map_congr_left
    intro p hp
    obtain ⟨j, hj⟩ := List.mem_iff_getElem?.1 hp
    obtain ⟨n, hn, _⟩ := I.leafPos j p hj
    simp [box, hn]

/-- A box that is not a cube: the root cube is strictly larger. -/
example : (∀ i, (![0, 0] : Pt ℚ 2) i ≤ (![4, 2] : Pt ℚ 2) i) ∧
    ∃ T e, TPReach (K := ℚ) (d := 2) ![0, 0] ![4, 2] [.expand 0 none 5, .expand 1 none 5] T e ∧
      decide (e = 2 ∧ T.radii = [2, 1, 1, 1, 1, 1/2, 1/2, 1/2, 1/2]) = true :=
  ⟨by decide +kernel, of_reachCheck (by decide +kernel)⟩

/-- **C29** (negation) Once the root has been expanded `find` never returns, for any point of the root cube: it uses up
every recursion bound (python: RecursionError). -/
theorem C29_refuted {dmin dmax : Pt K d} {ops : List (TPOp K d)} {T : TPTree K d} {e : ℕ}
    (h : TPReach dmin dmax ops T e) (he : 0 < e) (root : TPNode K d) (hroot : T.nodes[0]? = some root) (x : Pt K d)
    (hx : root.contains x) (fuel : ℕ) (prev : Option ℕ) : T.find x fuel prev = .error .runtime := by
  obtain ⟨R, _, _, r⟩ := reached_of h
  have hinner : root.isLeaf = false := by
    rcases r.inner with h0 | ⟨n, hn, hl⟩
    · omega
    · rw [hroot] at hn
      obtain rfl : root = n := by simpa using hn
      exact hl
  obtain ⟨c, m, hc, _⟩ := getChild_spec r.kids hroot hinner hx
  induction fuel generalizing prev with
  | zero => rfl
  | succ fuel ih =>
    simp only [TPTree.find, hroot, hinner, hc]
    simpa using ih (some c)

/-- The smallest such tree. -/
example : ∃ T root, TPReach (K := ℚ) (d := 1) ![0] ![1] [.expand 0 none 5] T 1 ∧ T.nodes[0]? = some root ∧
    root.contains ![1/3] ∧ T.find ![1/3] 1000 none = .error .runtime := by
  obtain ⟨T, e, hT, he⟩ := of_reachCheck (K := ℚ) (d := 1) (dmin := ![0]) (dmax := ![1])
    (ops := [.expand 0 none 5]) (P := fun _ e => decide (e = 1)) (by decide +kernel)
  obtain rfl : e = 1 := by simpa using he
  obtain ⟨root, hr, hbox, _⟩ := C27_tiling (by decide +kernel) hT
  have hc : root.contains ![1/3] := hbox _ (by decide +kernel)
  exact ⟨T, root, hT, hr, hc, C29_refuted hT one_pos root hr _ hc _ _⟩

/-- **C29** (what holds) Before the first expansion `find` returns the root, the only leaf. In any tree, `get_child` of
an inner node finds, for every point of the node's box, a child (later in the node list) whose box contains the point;
so the descent that `find` intends would reach a leaf. Missing: `find` itself on expanded trees, which is refuted. -/
theorem C29_partial {dmin dmax : Pt K d} {ops : List (TPOp K d)} {T : TPTree K d} {e : ℕ}
    (h : TPReach dmin dmax ops T e) :
    (e = 0 → ∀ x fuel prev, T.find x (fuel + 1) prev = .ok 0 ∧ T.leaves = [0]) ∧
    (∀ (p : ℕ) (n : TPNode K d), T.nodes[p]? = some n → n.isLeaf = false → ∀ x, n.contains x →
      ∃ c m, T.getChild n x = .ok c ∧ c ∈ n.children ∧ T.nodes[c]? = some m ∧ m.contains x ∧ p < c) := by
  obtain ⟨R, _, _, r⟩ := reached_of h
  refine ⟨?_, fun p n hn hl x hx => getChild_spec r.kids hn hl hx⟩
  rintro rfl x fuel prev
  obtain ⟨root, hroot, _⟩ := r.root
  have hL := r.nLeaves
  simp only [Nat.zero_mul, Nat.add_zero] at hL
  have hN := r.nNodes
  simp only [Nat.zero_mul, Nat.add_zero] at hN
  have h0 : T.leaves[0]? = some (T.leaves[0]'(by omega)) := List.getElem?_eq_getElem _
  obtain ⟨m, hm, hml⟩ := r.wf.leafPos 0 _ h0
  have hp0 : T.leaves[0]'(by omega) = 0 := by
    have := (List.getElem?_eq_some_iff.1 hm).1
    omega
  rw [hp0] at hm
  have hleaf : m.isLeaf = true := by rw [isLeaf_iff, hml]; decide
  constructor
  · simp [TPTree.find, hm, hleaf]
  · rw [List.eq_cons_of_length_one hL] 
    simpa using hp0

/-- **C32** The expansion criterion and its effect. `expand` of a leaf creates children iff no target is set, or at least
`n_min` weights are stored and their effective sample size `(Σw)²/Σw²` does not exceed `ess_target` times their
number. The children have half the radius and centres `center ± radius/2` for all sign combinations, their
weights add up to the parent's weight, and all other nodes keep everything. -/
theorem C32_expand {dmin dmax : Pt K d} {ops : List (TPOp K d)} {T : TPTree K d} {e : ℕ}
    (h : TPReach dmin dmax ops T e) (p : ℕ) (hp : p ∈ T.leaves) (n : TPNode K d) (hn : T.nodes[p]? = some n)
    (w : K) (hw : n.weight = XF.fin w) (ws : List K) (hws : n.weightHist = some (ws.map XF.fin)) (ess : Option K)
    (nMin : ℕ) :
    ∃ T' o, T.expand p ess nMin = .ok (T', o) ∧
      (o ≠ none ↔ ∀ t, ess = some t → nMin ≤ ws.length ∧
        ¬ (0 < (ws.map fun w => w * w).sum ∧ t * ws.length < ws.sum * ws.sum / (ws.map fun w => w * w).sum)) ∧
      (o = none → T' = T) ∧
      (∀ refs, o = some refs → 
        (∀ q, q ≠ p → q < T.nodes.length → T'.nodes[q]? = T.nodes[q]?) ∧
        ∃ kids : List (TPNode K d), refs.map (fun c => T'.nodes[c]?) = kids.map some ∧
          kids.length = 2 ^ d ∧
          (∀ s : Pt K d, (∀ i, s i = -1 ∨ s i = 1) →
            ∃ k ∈ kids, k.center = fun i => n.center i + n.radius / 2 * s i) ∧
          (∀ k ∈ kids, ∃ s : Pt K d, (∀ i, s i = -1 ∨ s i = 1) ∧
            k.center = fun i => n.center i + n.radius / 2 * s i) ∧
          (∀ k ∈ kids, k.radius = n.radius / 2 ∧ k.level = n.level + 1) ∧
          (kids.map fun k => k.weight).sum = n.weight ∧
          (∀ c ∈ refs, c ∈ T'.leaves) ∧ p ∉ T'.leaves) := by
  obtain ⟨R, _, _, r⟩ := reached_of h
  have I := r.wf
  have hpN : p < T.nodes.length := (List.getElem?_eq_some_iff.1 hn).1
  have hl : n.isLeaf = true := by
    obtain ⟨j, hj⟩ := List.mem_iff_getElem?.1 hp
    obtain ⟨m, hm, hml⟩ := I.leafPos j p hj
    rw [hn] at hm
    obtain rfl : n = m := by simpa using hm
    rw [isLeaf_iff, hml]; omega
  -- the criterion
  have crit : ∃ b, shouldExpand n ess nMin = .ok b ∧ (b = true ↔ ∀ t, ess = some t → nMin ≤ ws.length ∧
        ¬ (0 < (ws.map fun w => w * w).sum ∧ t * ws.length < ws.sum * ws.sum / (ws.map fun w => w * w).sum)) := by
    cases ess with
    | none => exact ⟨true, rfl, by simp⟩
    | some t =>
      have hsq : 0 ≤ (ws.map fun w => w * w).sum := by
        apply List.sum_nonneg
        intro a ha
        obtain ⟨b, _, rfl⟩ := List.mem_map.1 ha
        exact mul_self_nonneg b
      have e1 : (ws.map XF.fin).sum = XF.fin ws.sum := XF.sum_map_fin ws
      have e2 : ((ws.map XF.fin).map fun w => w * w).sum = XF.fin (ws.map fun w => w * w).sum := by
        rw [List.map_map, ← XF.sum_map_fin, List.map_map]
        rfl
      simp only [shouldExpand, hws, List.length_map, e1, e2, Option.some.injEq, forall_eq']
      by_cases hlen : ws.length < nMin
      · exact ⟨false, by rw [if_pos hlen], by simp; omega⟩
      · rw [if_neg hlen]
        rcases hsq.lt_or_eq with hpos | hz
        · rw [XF.fin_mul, XF.fin_div_ne _ _ hpos.ne']
          by_cases hc : t * ws.length < ws.sum * ws.sum / (ws.map fun w => w * w).sum
          · refine ⟨false, ?_, ?_⟩
            · simp [XF.ltb, hc]
            · simp [hpos, hc]
          · refine ⟨true, ?_, ?_⟩
            · simp [XF.ltb, hc]
            · simp [hpos, hc]; omega
        · refine ⟨true, ?_, ?_⟩
          · rw [← hz, XF.fin_mul, XF.fin_div, if_pos rfl]
            have : ws.sum = 0 := by
              apply List.sum_eq_zero
              intro a ha
              have h1 := List.single_le_sum (l := ws.map fun w => w * w) (by
                intro b hb
                obtain ⟨c, _, rfl⟩ := List.mem_map.1 hb
                exact mul_self_nonneg c) (a * a) (List.mem_map.2 ⟨a, ha, rfl⟩)
              rw [← hz] at h1
              exact mul_self_eq_zero.1 (le_antisymm h1 (mul_self_nonneg a))
            simp [this, XF.infMul, XF.ltb]
          · simp [← hz]; omega
  obtain ⟨b, hb, hbiff⟩ := crit
  have hex : T.expand p ess nMin
      = if b = true then .ok ((insertChildren T p n).1, some (List.range' T.nodes.length (2 ^ d)))
        else .ok (T, none) := by
    unfold TPTree.expand
    cases b
    · simp [hn, hl, hb]
    · simp [hn, hl, hb, insertChildren_eq]
  cases b with
  | false =>
    refine ⟨T, none, by simpa using hex, ?_, fun _ => rfl, by simp⟩
    simpa using hbiff
  | true =>
    refine ⟨_, _, by simpa using hex, ?_, by simp, ?_⟩
    · simpa using hbiff
    · intro refs hrefs
      simp only [Option.some.injEq] at hrefs
      subst hrefs
      have r' := r.insert hn hl
      have I' := r'.wf
      have look : ∀ t (ht : t < 2 ^ d), (insertChildren T p n).1.nodes[T.nodes.length + t]?
          = some ((kids T n)[t]'(by rw [length_kids]; exact ht)) := by
        intro t ht
        rw [insertChildren_eq]
        simp only
        rw [List.getElem?_set_ne (by omega), List.getElem?_append_right (by omega), Nat.add_sub_cancel_left]
        exact List.getElem?_eq_getElem _
      refine ⟨?_, kids T n, ?_, length_kids T n, ?_, ?_, ?_, ?_, ?_, ?_⟩
      · intro q hqp hq
        rw [insertChildren_eq]
        simp only
        rw [List.getElem?_set_ne (fun h => hqp h.symm), List.getElem?_append_left hq]
      · apply List.ext_getElem?
        intro t
        simp only [List.getElem?_map, getElem?_range'']
        by_cases ht : t < 2 ^ d
        · rw [if_pos ht, List.getElem?_eq_getElem (by rw [length_kids]; exact ht)]
          simp only [Option.map_some]
          rw [look t ht]
        · rw [if_neg ht, List.getElem?_eq_none (by rw [length_kids]; omega)]
          rfl
      · intro s hs
        have : (fun i => n.center i + n.radius / 2 * s i) ∈ (kids T n).map fun m => m.center := by
          rw [kids_center]
          exact List.mem_map.2 ⟨s, (mem_signVecs s).2 hs, rfl⟩
        obtain ⟨k, hk, hke⟩ := List.mem_map.1 this
        exact ⟨k, hk, hke⟩
      · intro k hk
        have : k.center ∈ (kids T n).map fun m => m.center := List.mem_map.2 ⟨k, hk, rfl⟩
        rw [kids_center] at this
        obtain ⟨s, hs, hse⟩ := List.mem_map.1 this
        exact ⟨s, (mem_signVecs s).1 hs, hse.symm⟩
      · intro k hk
        obtain ⟨⟨c, i⟩, _, rfl⟩ := List.mem_map.1 hk
        exact ⟨rfl, rfl⟩
      · have : (kids T n).map (fun k => k.weight)
            = (List.replicate (2 ^ d) (w / ((2 ^ d : ℕ) : K))).map XF.fin := by
          rw [List.map_replicate, List.eq_replicate_iff]
          refine ⟨by simp [length_kids], ?_⟩
          intro b hb
          obtain ⟨m, hm, rfl⟩ := List.mem_map.1 hb
          obtain ⟨⟨c, i⟩, _, rfl⟩ := List.mem_map.1 hm
          simp only [childAt, TPNode.new, hw]
          rw [XF.fin_div_ne _ _ (by positivity)]
        rw [this, XF.sum_map_fin, hw, List.sum_replicate, nsmul_eq_mul]
        congr 1
        field_simp
      · intro c hc
        obtain ⟨t, ht, rfl⟩ := List.mem_range'.1 hc
        rw [one_mul]
        have hk := look t ht
        rcases I'.leafOf _ _ hk with h1 | ⟨j, _, hj⟩
        · exfalso
          have hmem : (kids T n)[t]'(by rw [length_kids]; exact ht) ∈ kids T n := List.getElem_mem _
          have hlf : ((insertChildren T p n).1.leavesIdx)[T.nodes.length + t]? = some true := by
            rw [insertChildren_eq]
            simp only
            rw [I.idx p n hn, List.getElem?_set_ne (by omega), List.getElem?_append_right (by rw [I.lenMask]; omega),
              I.lenMask, Nat.add_sub_cancel_left]
            simp [ht]
          rw [I'.mask, List.getElem?_map, hk] at hlf
          simp only [Option.map_some, Option.some.injEq] at hlf
          exact (isLeaf_iff _).1 hlf h1
        · exact List.mem_iff_getElem?.2 ⟨j, hj⟩
      · intro hpl
        obtain ⟨j, hj⟩ := List.mem_iff_getElem?.1 hpl
        obtain ⟨m, hm, hml⟩ := I'.leafPos j p hj
        rw [insertChildren_eq] at hm
        simp only at hm
        rw [List.getElem?_set_self (by simp; omega)] at hm
        simp only [Option.some.injEq] at hm
        rw [← hm] at hml
        simp at hml

/-- A leaf with two weights (3 and 1, effective sample size 1.6) that splits for the target 0.9 and not for 0.5. -/
example : ∃ T e, TPReach (K := ℚ) (d := 1) ![0] ![1]
    [.sample 0 ![1/4], .weigh 0 (fun _ => XF.fin 3) (fun _ => XF.fin 1),
     .sample 0 ![3/4], .weigh 0 (fun _ => XF.fin 1) (fun _ => XF.fin 1)] T e ∧
    decide (0 ∈ T.leaves ∧ (T.nodes[0]?).map (fun n => n.weight) = some (XF.fin 1) ∧
      (T.nodes[0]?).map (fun n => n.weightHist) = some (some ([3, 1].map XF.fin)) ∧
      ((T.expand 0 (some (9/10)) 2).toOption.bind fun r => r.2) = some [1, 2] ∧
      ((T.expand 0 (some (1/2)) 2).toOption.map fun r => r.2) = some none) = true :=
  of_reachCheck (by decide +kernel)

end Verif
