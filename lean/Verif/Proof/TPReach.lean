import Verif.Proof.TPRun
import Verif.Spec.TPOps

set_option linter.unusedSectionVars false
set_option autoImplicit false

namespace Verif

variable {K : Type*} [Field K] [LinearOrder K] [IsStrictOrderedRing K] {d : ℕ}

namespace TPTree

theorem expand_cases {T T' : TPTree K d} {p : ℕ} {ess : Option K} {nMin : ℕ} {r : Option (List ℕ)}
    (h : T.expand p ess nMin = .ok (T', r)) :
    (r = none ∧ T' = T ∧ ∃ n, T.nodes[p]? = some n ∧ n.isLeaf = true ∧ shouldExpand n ess nMin = .ok false) ∨
    ∃ n, T.nodes[p]? = some n ∧ n.isLeaf = true ∧ shouldExpand n ess nMin = .ok true ∧
      T' = (insertChildren T p n).1 ∧ r = some (List.range' T.nodes.length (2 ^ d)) := by
  unfold expand at h
  split at h
  · cases h
  · rename_i n hn
    split_ifs at h with hl
    have hl' : n.isLeaf = true := by simpa using hl
    split at h
    · cases h
    · rename_i hs
      cases h
      left
      exact ⟨rfl, rfl, n, hn, hl', hs⟩
    · rename_i hs
      right
      cases h
      refine ⟨n, hn, hl', hs, rfl, ?_⟩
      rw [length_newNodes]

/-- The children of inner nodes are the `2^d` half size cubes of the node, in the order of `signVecs`. -/
def KidsOK (T : TPTree K d) : Prop :=
  ∀ (p : ℕ) (n : TPNode K d), T.nodes[p]? = some n → n.isLeaf = false → n.children.length = 2 ^ d ∧
    ∀ (t : ℕ) (s : Pt K d), (signVecs d)[t]? = some s →
      ∃ (c : ℕ) (m : TPNode K d), n.children[t]? = some c ∧ p < c ∧ T.nodes[c]? = some m ∧
      m.center = (fun i => n.center i + n.radius / 2 * s i) ∧ m.radius = n.radius / 2 ∧ m.level = n.level + 1

theorem Same.kids {T T' : TPTree K d} (h : Same T T') (k : KidsOK T) : KidsOK T' := by
  intro p n hn hl
  obtain ⟨m, hm, hk⟩ := h.node hn
  obtain ⟨k1, k2, k3, k4, k5, k6, k7⟩ := key_eq hk
  have := k p m hm (by simpa [TPNode.isLeaf, k4] using hl)
  rw [k1, k2, k3, k6]
  refine ⟨this.1, ?_⟩
  intro t s hs
  obtain ⟨c, m', h1, hpc, h2, h3, h4, h5⟩ := this.2 t s hs
  obtain ⟨m'', hm'', hk'⟩ := h.symm.node h2
  obtain ⟨q1, q2, q3, q4, q5, q6, q7⟩ := key_eq hk'
  exact ⟨c, m'', h1, hpc, hm'', by rw [← q1, h3], by rw [← q2, h4], by rw [← q6, h5]⟩

theorem insertChildren_kids {T : TPTree K d} {p : ℕ} {n : TPNode K d} (hn : T.nodes[p]? = some n)
    (hl : n.isLeaf = true) (k : KidsOK T) : KidsOK (insertChildren T p n).1 := by
  have hpN : p < T.nodes.length := (List.getElem?_eq_some_iff.1 hn).1
  intro q m hm hml
  rw [insertChildren_eq] at hm ⊢
  simp only at hm ⊢
  rw [List.getElem?_set] at hm
  -- lookup of an old node in the new list, up to structure
  have old : ∀ (c : ℕ) (m' : TPNode K d), T.nodes[c]? = some m' → ∃ m'' : TPNode K d,
      ((T.nodes ++ kids T n).set p { n with
        children := List.range' T.nodes.length (2 ^ d), leafIdx := -1, coordsHist := none, weightHist := none,
        histDeleted := true })[c]? = some m'' ∧ m''.center = m'.center ∧ m''.radius = m'.radius ∧ m''.level = m'.level := by
    intro c m' hc
    have hcN : c < T.nodes.length := (List.getElem?_eq_some_iff.1 hc).1
    rw [List.getElem?_set]
    by_cases hpc : p = c
    · subst hpc
      rw [hn] at hc
      obtain rfl : n = m' := by simpa using hc
      rw [if_pos rfl, if_pos (by simp; omega)]
      exact ⟨_, rfl, rfl, rfl, rfl⟩
    · rw [if_neg hpc, List.getElem?_append_left hcN]
      exact ⟨m', hc, rfl, rfl, rfl⟩
  split_ifs at hm with h1 h2
  · simp only [Option.some.injEq] at hm
    subst h1
    subst hm
    refine ⟨by simp, ?_⟩
    intro t s hs
    have ht : t < 2 ^ d := by
      have := (List.getElem?_eq_some_iff.1 hs).1
      rwa [length_signVecs] at this
    have hc : (childCenters n)[t]? = some fun i => n.center i + n.radius / 2 * s i := by
      unfold childCenters
      rw [List.getElem?_map, hs]
      rfl
    refine ⟨T.nodes.length + t, childAt T n t _, ?_, by omega, ?_, rfl, rfl, rfl⟩
    · rw [getElem?_range'', if_pos ht]
    · rw [List.getElem?_set_ne (by omega), List.getElem?_append_right (by omega), Nat.add_sub_cancel_left,
        kids_getElem?, hc]
      rfl
  · by_cases hq : q < T.nodes.length
    · rw [List.getElem?_append_left hq] at hm
      obtain ⟨a, b⟩ := k q m hm hml
      refine ⟨a, ?_⟩
      intro t s hs
      obtain ⟨c, m', g1, hpc, g2, g3, g4, g5⟩ := b t s hs
      obtain ⟨m'', e1, e2, e3, e4⟩ := old c m' g2
      exact ⟨c, m'', g1, hpc, e1, by rw [e2, g3], by rw [e3, g4], by rw [e4, g5]⟩
    · exfalso
      rw [List.getElem?_append_right (by omega), kids_getElem?] at hm
      cases hc : (childCenters n)[q - T.nodes.length]? with
      | none => rw [hc] at hm; simp at hm
      | some c =>
        rw [hc] at hm
        simp only [Option.map_some, Option.some.injEq] at hm
        rw [← hm] at hml
        simp only [childAt, TPNode.new, TPNode.isLeaf] at hml
        have := (isLeaf_iff n).1 hl
        split_ifs at hml with h0
        · simp at hml; exact this hml
        · simp at hml; omega

/-! ## Reachable trees -/

theorem le_foldl_max : ∀ (l : List K) (a b : K), b ≤ a ∨ b ∈ l → b ≤ l.foldl max a
  | [], a, b, h => by simpa using h
  | x :: l, a, b, h => by
    simp only [List.foldl_cons]
    apply le_foldl_max l
    rcases h with h | h
    · exact Or.inl (le_trans h (le_max_left _ _))
    · rcases List.mem_cons.1 h with rfl | h
      · exact Or.inl (le_max_right _ _)
      · exact Or.inr h

theorem foldl_max_mem : ∀ (l : List K) (a : K), l.foldl max a = a ∨ l.foldl max a ∈ l
  | [], a => by simp
  | x :: l, a => by
    simp only [List.foldl_cons]
    rcases foldl_max_mem l (max a x) with h | h
    · rw [h]
      rcases max_choice a x with h' | h' <;> rw [h'] <;> simp
    · right; exact List.mem_cons_of_mem _ h

/-- What `init` builds. -/
theorem init_eq {dmin dmax : Pt K d} {T0 : TPTree K d} (h : TPTree.init dmin dmax = .ok T0) :
    ∃ R : K, (∃ i, R = (dmax i - dmin i) / 2) ∧ (∀ i, (dmax i - dmin i) / 2 ≤ R) ∧
      T0 = { nodes := [TPNode.new (fun i => (dmin i + dmax i) / 2) R 0 0 0 (XF.fin 0)]
             leaves := [0]
             centers := [fun i => (dmin i + dmax i) / 2]
             radii := [R]
             samples := [fun _ => 0]
             weights := [XF.fin 0]
             leavesIdx := [true] } := by
  unfold TPTree.init at h
  split at h
  · cases h
  · rename_i r rs hl
    cases h
    refine ⟨rs.foldl max r, ?_, ?_, rfl⟩
    · have : rs.foldl max r ∈ List.ofFn fun i => (dmax i - dmin i) / 2 := by
        rw [hl]
        rcases foldl_max_mem rs r with h | h
        · rw [h]; simp
        · exact List.mem_cons_of_mem _ h
      obtain ⟨i, hi⟩ := (List.mem_ofFn' _ _).1 this
      exact ⟨i, hi.symm⟩
    · intro i
      apply le_foldl_max
      have : (dmax i - dmin i) / 2 ∈ r :: rs := by
        rw [← hl, List.mem_ofFn']
        exact ⟨i, rfl⟩
      rcases List.mem_cons.1 this with h | h
      · exact Or.inl h.le
      · exact Or.inr h

theorem init_ok (dmin dmax : Pt K d) (hd : 0 < d) : ∃ T0, TPTree.init dmin dmax = .ok T0 := by
  unfold TPTree.init
  split
  · rename_i h
    have := congrArg List.length h
    simp at this
    omega
  · exact ⟨_, rfl⟩

/-- Invariant of a tree reached with `e` expansions, for the root cube `(c, R)`. -/
structure Reached (c : Pt K d) (R : K) (T : TPTree K d) (e : ℕ) : Prop where
  wf : WF T
  kids : KidsOK T
  tiles : 0 ≤ R → Tiles c R T.leafBoxes
  root : ∃ n, T.nodes[0]? = some n ∧ n.center = c ∧ n.radius = R ∧ n.level = 0
  nNodes : T.nodes.length = 1 + e * 2 ^ d
  nLeaves : T.leaves.length = 1 + e * (2 ^ d - 1)
  inner : e = 0 ∨ ∃ n, T.nodes[0]? = some n ∧ n.isLeaf = false

theorem reached_init {dmin dmax : Pt K d} {T0 : TPTree K d} (h : TPTree.init dmin dmax = .ok T0) :
    ∃ R : K, (∃ i, R = (dmax i - dmin i) / 2) ∧ (∀ i, (dmax i - dmin i) / 2 ≤ R) ∧
      Reached (fun i => (dmin i + dmax i) / 2) R T0 0 := by
  obtain ⟨R, h1, h2, rfl⟩ := init_eq h
  refine ⟨R, h1, h2, ?_⟩
  refine ⟨⟨?_, ?_, ?_, ?_, ?_, ?_, ?_, ?_, ?_⟩, ?_, ?_, ?_, ?_, ?_, Or.inl rfl⟩
  · intro i n hn
    cases i with
    | zero => simp at hn; rw [← hn]; rfl
    | succ i => simp at hn
  · intro j p hp
    cases j with
    | zero => simp at hp; subst hp; exact ⟨_, rfl, rfl⟩
    | succ i => simp at hp
  · intro i n hn
    cases i with
    | zero => simp at hn; right; exact ⟨0, by rw [← hn]; rfl, rfl⟩
    | succ i => simp at hn
  · simp [TPNode.new, TPNode.isLeaf]
  · simp [TPNode.new]
  · simp [TPNode.new]
  · rfl
  · rfl
  · intro i n hn hl
    cases i with
    | zero => simp at hn; rw [← hn] at hl; simp [TPNode.new] at hl
    | succ i => simp at hn
  · intro i n hn hl
    cases i with
    | zero => simp at hn; rw [← hn] at hl; simp [TPNode.new, TPNode.isLeaf] at hl
    | succ i => simp at hn
  · intro hR
    simp only [leafBoxes, box, List.map_cons, List.map_nil, List.getElem?_cons_zero, TPNode.new]
    refine ⟨?_, ?_, ?_, ?_, ?_⟩
    · intro x; simp
    · intro x hx; exact ⟨_, List.mem_singleton_self _, hx⟩
    · intro b hb x hx
      rw [List.mem_singleton] at hb
      rw [hb] at hx; exact hx
    · intro b hb
      rw [List.mem_singleton] at hb
      exact ⟨0, by simp [hb]⟩
    · simp
  · exact ⟨_, rfl, rfl, rfl, rfl⟩
  · simp
  · simp

theorem Reached.same {c : Pt K d} {R : K} {T T' : TPTree K d} {e : ℕ} (r : Reached c R T e) (h : Same T T') :
    Reached c R T' e := by
  refine ⟨h.inv r.wf, h.kids r.kids, ?_, ?_, ?_, ?_, ?_⟩
  · rw [h.leafBoxes]; exact r.tiles
  · obtain ⟨n, hn, h1, h2, h3⟩ := r.root
    obtain ⟨m, hm, hk⟩ := h.symm.node hn
    obtain ⟨q1, q2, q3, q4, q5, q6, q7⟩ := key_eq hk
    exact ⟨m, hm, by rw [← q1, h1], by rw [← q2, h2], by rw [← q6, h3]⟩
  · rw [h.length, r.nNodes]
  · rw [h.leaves, r.nLeaves]
  · rcases r.inner with h0 | ⟨n, hn, hl⟩
    · exact Or.inl h0
    · right
      obtain ⟨m, hm, hk⟩ := h.symm.node hn
      exact ⟨m, hm, by simpa [TPNode.isLeaf, (key_eq hk).2.2.2.1] using hl⟩

theorem Reached.insert {c : Pt K d} {R : K} {T : TPTree K d} {e p : ℕ} {n : TPNode K d} (r : Reached c R T e)
    (hn : T.nodes[p]? = some n) (hl : n.isLeaf = true) : Reached c R (insertChildren T p n).1 (e + 1) := by
  refine ⟨insertChildren_wf r.wf hn hl, insertChildren_kids hn hl r.kids,
    fun hR => insertChildren_tiles r.wf hn hl hR (r.tiles hR), ?_, ?_, ?_, ?_⟩
  · obtain ⟨m, hm, h1, h2, h3⟩ := r.root
    have h0N : 0 < T.nodes.length := (List.getElem?_eq_some_iff.1 hm).1
    rw [insertChildren_eq]
    simp only
    rw [List.getElem?_set]
    by_cases hp : p = 0
    · subst hp
      rw [hn] at hm
      obtain rfl : n = m := by simpa using hm
      rw [if_pos rfl, if_pos (by simp; omega)]
      exact ⟨_, rfl, h1, h2, h3⟩
    · rw [if_neg hp, List.getElem?_append_left h0N]
      exact ⟨m, hm, h1, h2, h3⟩
  · rw [insertChildren_eq]
    simp only [List.length_set, List.length_append, length_kids, r.nNodes]
    ring
  · rw [insertChildren_eq]
    simp only [List.length_set, List.length_append, List.length_range', r.nLeaves]
    ring
  · right
    have hpN : p < T.nodes.length := (List.getElem?_eq_some_iff.1 hn).1
    rw [insertChildren_eq]
    simp only
    rw [List.getElem?_set]
    by_cases hp : p = 0
    · rw [if_pos hp, if_pos (by simp; omega)]
      exact ⟨_, rfl, rfl⟩
    · rw [if_neg hp, List.getElem?_append_left (by omega)]
      rcases r.inner with h0 | h0
      · exfalso
        have := r.nNodes
        rw [h0] at this
        omega
      · exact h0

theorem Reached.expand {c : Pt K d} {R : K} {T T' : TPTree K d} {e p : ℕ} (r : Reached c R T e) {ess : Option K}
    {nMin : ℕ} {o : Option (List ℕ)} (h : T.expand p ess nMin = .ok (T', o)) :
    Reached c R T' (if o.isSome then e + 1 else e) := by
  rcases expand_cases h with ⟨rfl, rfl, _⟩ | ⟨n, hn, hl, _, rfl, rfl⟩
  · exact r
  · exact r.insert hn hl

theorem Reached.step {c : Pt K d} {R : K} {T T' : TPTree K d} {e e' : ℕ} (r : Reached c R T e) (op : TPOp K d)
    (h : op.step (T, e) = .ok (T', e')) : Reached c R T' e' := by
  cases op with
  | expand p ess nMin =>
    simp only [TPOp.step] at h
    cases hx : T.expand p ess nMin with
    | error => simp [hx, Except.map] at h
    | ok o =>
      obtain ⟨T1, o⟩ := o
      simp only [hx, Except.map, Except.ok.injEq, Prod.mk.injEq] at h
      rw [← h.1, ← h.2]
      exact r.expand hx
  | sample p x =>
    simp only [TPOp.step] at h
    cases hx : T.sampleNode p x with
    | error => simp [hx, Except.map] at h
    | ok T1 =>
      simp only [hx, Except.map, Except.ok.injEq, Prod.mk.injEq] at h
      rw [← h.1, ← h.2]
      exact r.same (sampleNode_same hx)
  | weigh p t q =>
    simp only [TPOp.step] at h
    cases hx : T.weighNode p t q with
    | error => simp [hx, Except.map] at h
    | ok T1 =>
      simp only [hx, Except.map, Except.ok.injEq, Prod.mk.injEq] at h
      rw [← h.1, ← h.2]
      exact r.same (weighNode_same hx)
  | normalize =>
    simp only [TPOp.step, Except.ok.injEq, Prod.mk.injEq] at h
    rw [← h.1, ← h.2]
    exact r.same (selfNormalize_same r.wf)
  | resample t u =>
    simp only [TPOp.step] at h
    cases hx : T.resample t u with
    | error => simp [hx, Except.map] at h
    | ok T1 =>
      simp only [hx, Except.map, Except.ok.injEq, Prod.mk.injEq] at h
      rw [← h.1, ← h.2]
      exact r.same (resample_same r.wf hx)

theorem Reached.run {c : Pt K d} {R : K} : ∀ (ops : List (TPOp K d)) {T T' : TPTree K d} {e e' : ℕ},
    Reached c R T e → ops.foldlM TPOp.step (T, e) = .ok (T', e') → Reached c R T' e'
  | [], T, T', e, e', r, h => by
    simp only [List.foldlM_nil, pure, Except.pure, Except.ok.injEq, Prod.mk.injEq] at h
    rw [← h.1, ← h.2]; exact r
  | op :: ops, T, T', e, e', r, h => by
    simp only [List.foldlM_cons, bind, Except.bind] at h
    cases hs : op.step (T, e) with
    | error => simp [hs] at h
    | ok s =>
      obtain ⟨T1, e1⟩ := s
      rw [hs] at h
      exact Reached.run ops (r.step op hs) h

theorem reached_of {dmin dmax : Pt K d} {ops : List (TPOp K d)} {T : TPTree K d} {e : ℕ}
    (h : TPReach dmin dmax ops T e) :
    ∃ R : K, (∃ i, R = (dmax i - dmin i) / 2) ∧ (∀ i, (dmax i - dmin i) / 2 ≤ R) ∧
      Reached (fun i => (dmin i + dmax i) / 2) R T e := by
  obtain ⟨T0, h0, hr⟩ := h
  obtain ⟨R, h1, h2, r⟩ := reached_init h0
  exact ⟨R, h1, h2, r.run ops hr⟩

/-- Evaluates a concrete history (used for the examples only). -/
def reachCheck (dmin dmax : Pt K d) (ops : List (TPOp K d)) (P : TPTree K d → ℕ → Bool) : Bool :=
  match TPTree.init dmin dmax with
  | .error _ => false
  | .ok T0 => match ops.foldlM TPOp.step (T0, 0) with
    | .error _ => false
    | .ok (T, e) => P T e

theorem of_reachCheck {dmin dmax : Pt K d} {ops : List (TPOp K d)} {P : TPTree K d → ℕ → Bool}
    (h : reachCheck dmin dmax ops P = true) : ∃ T e, TPReach dmin dmax ops T e ∧ P T e = true := by
  unfold reachCheck at h
  split at h
  · simp at h
  · rename_i T0 h0
    split at h
    · simp at h
    · rename_i T e h1
      exact ⟨T, e, ⟨T0, h0, h1⟩, h⟩

theorem getChild_spec {T : TPTree K d} (k : KidsOK T) {p : ℕ} {n : TPNode K d} (hn : T.nodes[p]? = some n)
    (hl : n.isLeaf = false) {x : Pt K d} (hx : n.contains x) :
    ∃ c m, T.getChild n x = .ok c ∧ c ∈ n.children ∧ T.nodes[c]? = some m ∧ m.contains x ∧ p < c := by
  obtain ⟨hlen, hk⟩ := k p n hn hl
  obtain ⟨s, hs, hsx⟩ := exists_closed_child n.center n.radius x hx
  obtain ⟨t, ht⟩ := List.mem_iff_getElem?.1 hs
  obtain ⟨c, m, h1, _, h2, h3, h4, _⟩ := hk t s ht
  have hcm : c ∈ n.children := List.mem_iff_getElem?.2 ⟨t, h1⟩
  have hmx : m.contains x := by
    intro i
    rw [h3, h4]
    exact hsx i
  unfold getChild
  cases hf : n.children.find? fun c => match T.nodes[c]? with
    | some m => decide (m.contains x)
    | none => false with
  | none =>
    exfalso
    rw [List.find?_eq_none] at hf
    have := hf c hcm
    simp [h2, hmx] at this
  | some c' =>
    have hc' := List.find?_some hf
    have hmem := List.mem_of_find?_eq_some hf
    split at hc'
    · rename_i m' hm'
      obtain ⟨t', ht'⟩ := List.mem_iff_getElem?.1 hmem
      have hlt : t' < (signVecs (K := K) d).length := by
        rw [length_signVecs, ← hlen]
        exact (List.getElem?_eq_some_iff.1 ht').1
      obtain ⟨c'', m'', g1, g2, _⟩ := hk t' _ (List.getElem?_eq_getElem hlt)
      rw [ht'] at g1
      obtain rfl : c' = c'' := by simpa using g1
      exact ⟨c', m', rfl, hmem, hm', by simpa using hc', g2⟩
    · simp at hc'

end TPTree
end Verif
