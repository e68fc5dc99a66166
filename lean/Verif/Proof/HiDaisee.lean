import Verif.Spec.HiDaisee
import Mathlib.Tactic.FieldSimp
import Mathlib.Tactic.Linarith
import Mathlib.Tactic.Ring
import Mathlib.Algebra.Order.BigOperators.Ring.Finset
import Mathlib.Algebra.Order.Field.Basic

/-!
# HiDaisee: the tree invariant
-/

set_option linter.unusedSectionVars false
set_option autoImplicit false

namespace Verif
namespace HiD

variable {K : Type*} [Field K] [LinearOrder K] [IsStrictOrderedRing K] {d : ℕ} {target : Pt K d → XF K}

/-- A leaf: box, samples and weights. -/
structure GoodLeaf (target : Pt K d → XF K) (n : Node K d) (xs : List (Pt K d)) : Prop where
  pos : ∀ i, 0 < n.radius i
  samples : n.samples = some xs
  N : n.N = xs.length
  weights : n.weights = xs.map fun x => target x / n.sampler.prob1 x
  mem : ∀ x ∈ xs, n.Has x

theorem has_iff (n : Node K d) (x : Pt K d) : n.sampler.inlier x ↔ n.Has x := Iff.rfl

theorem vol_eq (n : Node K d) : n.sampler.volume = n.vol := by
  simp [Node.sampler, Node.vol, mul_comm]

theorem vol_pos {n : Node K d} (h : ∀ i, 0 < n.radius i) : 0 < n.vol :=
  Finset.prod_pos fun i _ => mul_pos two_pos (h i)

theorem prob1_has {n : Node K d} (hp : ∀ i, 0 < n.radius i) {x : Pt K d} (h : n.Has x) :
    n.sampler.prob1 x = XF.fin (1 / n.vol) := by
  unfold Uniform.prob1 Uniform.probVal
  rw [if_pos ((has_iff n x).2 h), vol_eq, XF.fin_div_ne _ _ (vol_pos hp).ne']

theorem prob1_not {n : Node K d} {x : Pt K d} (h : ¬ n.Has x) : n.sampler.prob1 x = XF.fin 0 := by
  unfold Uniform.prob1
  rw [if_neg (fun h' => h ((has_iff n x).1 h'))]

theorem leb_prob {n : Node K d} (hp : ∀ i, 0 < n.radius i) (x : Pt K d) :
    XF.leb (n.sampler.prob1 x) (XF.fin 0) = true ↔ ¬ n.Has x := by
  by_cases h : n.Has x
  · rw [prob1_has hp h]
    simp [XF.leb, h, vol_pos hp]
  · rw [prob1_not h]
    simp [XF.leb, h]

theorem ltb_prob {n : Node K d} (hp : ∀ i, 0 < n.radius i) (x : Pt K d) :
    XF.ltb (XF.fin 0) (n.sampler.prob1 x) = true ↔ n.Has x := by
  by_cases h : n.Has x
  · rw [prob1_has hp h]
    simp [XF.ltb, h, vol_pos hp]
  · rw [prob1_not h]
    simp [XF.ltb, h]

theorem addSample_good {n : Node K d} {xs : List (Pt K d)} (h : GoodLeaf target n xs) {x : Pt K d} (hx : n.Has x) :
    GoodLeaf target (n.addSample x (target x / n.sampler.prob1 x)) (xs ++ [x]) := by
  refine ⟨h.pos, ?_, ?_, ?_, ?_⟩
  · simp [Node.addSample, h.samples]
  · simp [Node.addSample, h.samples]
  · simp only [Node.addSample, h.weights, List.map_append, List.map_cons, List.map_nil]
    rfl
  · intro y hy
    rcases List.mem_append.1 hy with hy | hy
    · exact h.mem y hy
    · rw [List.mem_singleton.1 hy]
      exact hx

/-- Same box, mass and references. -/
structure SameBox (n n' : Node K d) : Prop where
  center : n'.center = n.center
  radius : n'.radius = n.radius
  q : n'.q = n.q

theorem SameBox.has {n n' : Node K d} (h : SameBox n n') (x : Pt K d) : n'.Has x ↔ n.Has x := by
  unfold Node.Has
  rw [h.center, h.radius]

theorem push_fold (j : Fin d) (ys : List (Pt K d)) : ∀ (l r : Node K d) (xs zs : List (Pt K d)),
    GoodLeaf target l xs → GoodLeaf target r zs →
    (∀ lr, ys.foldlM (push target j) (l, r) = .ok lr →
      SameBox l lr.1 ∧ SameBox r lr.2 ∧
      GoodLeaf target lr.1 (xs ++ ys.filter fun x => decide (x j < l.center j + l.radius j)) ∧
      GoodLeaf target lr.2 (zs ++ ys.filter fun x => !decide (x j < l.center j + l.radius j))) ∧
    (∀ e, ys.foldlM (push target j) (l, r) = .error e →
      e = .value ∧ ∃ x ∈ ys, if x j < l.center j + l.radius j then ¬ l.Has x else ¬ r.Has x) ∧
    ((∀ x ∈ ys, if x j < l.center j + l.radius j then l.Has x else r.Has x) → ∃ lr, ys.foldlM (push target j) (l, r) = .ok lr) := by
  induction ys with
  | nil =>
    intro l r xs zs hl hr
    refine ⟨?_, ?_, ?_⟩
    · intro lr h
      cases h
      exact ⟨⟨rfl, rfl, rfl⟩, ⟨rfl, rfl, rfl⟩, by simpa using hl, by simpa using hr⟩
    · intro e h
      cases h
    · intro _
      exact ⟨_, rfl⟩
  | cons y ys ih =>
    intro l r xs zs hl hr
    rw [List.foldlM_cons]
    by_cases hc : y j < l.center j + l.radius j
    · by_cases hy : l.Has y
      · have hp : push target j (l, r) y = .ok (l.addSample y (target y / l.sampler.prob1 y), r) := by
          unfold push
          rw [if_pos hc, if_neg (fun h => (leb_prob hl.pos y).1 h hy)]
        rw [hp]
        obtain ⟨h1, h2, h3⟩ := ih _ r _ zs (addSample_good hl hy) hr
        refine ⟨?_, ?_, ?_⟩
        · intro lr h
          obtain ⟨a1, a2, a3, a4⟩ := h1 lr h
          refine ⟨⟨a1.center, a1.radius, a1.q⟩, a2, ?_, ?_⟩
          · rw [List.filter_cons_of_pos (by simpa using hc)]
            simpa [Node.addSample] using a3
          · rw [List.filter_cons_of_neg (by simpa using hc)]
            simpa [Node.addSample] using a4
        · intro e h
          obtain ⟨b1, x, b2, b3⟩ := h2 e h
          exact ⟨b1, x, List.mem_cons_of_mem _ b2, b3⟩
        · intro h
          exact h3 fun x hx => h x (List.mem_cons_of_mem _ hx)
      · have hp : push target j (l, r) y = .error .value := by
          unfold push
          rw [if_pos hc, if_pos ((leb_prob hl.pos y).2 hy)]
        rw [hp]
        refine ⟨fun lr h => (by cases h), fun e h => ?_, fun h => ?_⟩
        · cases h
          exact ⟨rfl, y, List.mem_cons_self, by rw [if_pos hc]; exact hy⟩
        · have := h y List.mem_cons_self
          rw [if_pos hc] at this
          exact absurd this hy
    · by_cases hy : r.Has y
      · have hp : push target j (l, r) y = .ok (l, r.addSample y (target y / r.sampler.prob1 y)) := by
          unfold push
          rw [if_neg hc, if_neg (fun h => (leb_prob hr.pos y).1 h hy)]
        rw [hp]
        obtain ⟨h1, h2, h3⟩ := ih l _ xs _ hl (addSample_good hr hy)
        refine ⟨?_, ?_, ?_⟩
        · intro lr h
          obtain ⟨a1, a2, a3, a4⟩ := h1 lr h
          refine ⟨a1, ⟨a2.center, a2.radius, a2.q⟩, ?_, ?_⟩
          · rw [List.filter_cons_of_neg (by simpa using hc)]
            exact a3
          · rw [List.filter_cons_of_pos (by simpa using hc)]
            simpa using a4
        · intro e h
          obtain ⟨b1, x, b2, b3⟩ := h2 e h
          exact ⟨b1, x, List.mem_cons_of_mem _ b2, b3⟩
        · intro h
          exact h3 fun x hx => h x (List.mem_cons_of_mem _ hx)
      · have hp : push target j (l, r) y = .error .value := by
          unfold push
          rw [if_neg hc, if_pos ((leb_prob hr.pos y).2 hy)]
        rw [hp]
        refine ⟨fun lr h => (by cases h), fun e h => ?_, fun h => ?_⟩
        · cases h
          exact ⟨rfl, y, List.mem_cons_self, by rw [if_neg hc]; exact hy⟩
        · have := h y List.mem_cons_self
          rw [if_neg hc] at this
          exact absurd this hy

/-! ### The children -/

theorem children_cut (n : Node K d) (j : Fin d) :
    (children n j).1.center j + (children n j).1.radius j = n.center j := by
  simp [children, Node.new]

theorem children_left (n : Node K d) (j : Fin d) (hp : ∀ i, 0 < n.radius i) (x : Pt K d) :
    (children n j).1.Has x ↔ n.Has x ∧ x j ≤ n.center j := by
  have hj := hp j
  constructor
  · intro h
    have hjj := h j
    simp [children, Node.new] at hjj
    refine ⟨fun i => ?_, by linarith [hjj.2]⟩
    by_cases hi : i = j
    · subst hi
      constructor <;> simp <;> linarith [hjj.1, hjj.2]
    · have := h i
      simpa [children, Node.new, hi] using this
  · rintro ⟨h, hc⟩ i
    by_cases hi : i = j
    · subst hi
      have := h i
      simp at this
      simp [children, Node.new]
      constructor <;> linarith [this.1]
    · have := h i
      simpa [children, Node.new, hi] using this

theorem children_right (n : Node K d) (j : Fin d) (hp : ∀ i, 0 < n.radius i) (x : Pt K d) :
    (children n j).2.Has x ↔ n.Has x ∧ n.center j < x j := by
  have hj := hp j
  constructor
  · intro h
    have hjj := h j
    simp [children, Node.new] at hjj
    refine ⟨fun i => ?_, by linarith [hjj.1]⟩
    by_cases hi : i = j
    · subst hi
      constructor <;> simp <;> linarith [hjj.1, hjj.2]
    · have := h i
      simpa [children, Node.new, hi] using this
  · rintro ⟨h, hc⟩ i
    by_cases hi : i = j
    · subst hi
      have := h i
      simp at this
      simp [children, Node.new]
      constructor <;> linarith [this.2]
    · have := h i
      simpa [children, Node.new, hi] using this

theorem children_good (n : Node K d) (j : Fin d) (hp : ∀ i, 0 < n.radius i) :
    GoodLeaf target (children n j).1 [] ∧ GoodLeaf target (children n j).2 [] := by
  have hr : ∀ i, 0 < Function.update n.radius j (n.radius j / 2) i := by
    intro i
    by_cases hi : i = j
    · subst hi; simp [hp i]
    · simp [hi, hp i]
  exact ⟨⟨hr, rfl, rfl, rfl, by simp⟩, ⟨hr, rfl, rfl, rfl, by simp⟩⟩

theorem children_vol (n : Node K d) (j : Fin d) :
    (children n j).1.vol + (children n j).2.vol = n.vol := by
  have h : ∀ m : Node K d, m.radius = Function.update n.radius j (n.radius j / 2) → m.vol = n.vol / 2 := by
    intro m hm
    unfold Node.vol
    rw [hm, ← Finset.mul_prod_erase Finset.univ _ (Finset.mem_univ j),
      ← Finset.mul_prod_erase Finset.univ (fun i => 2 * n.radius i) (Finset.mem_univ j)]
    have : ∏ x ∈ Finset.univ.erase j, 2 * Function.update n.radius j (n.radius j / 2) x =
        ∏ x ∈ Finset.univ.erase j, 2 * n.radius x := by
      refine Finset.prod_congr rfl fun i hi => ?_
      rw [Function.update_of_ne (Finset.ne_of_mem_erase hi)]
    rw [this]
    simp
    ring
  rw [h (children n j).1 rfl, h (children n j).2 rfl]
  ring

/-! ### The tree -/

/-- The tree invariant. -/
structure Good (lo hi : Pt K d) (target : Pt K d → XF K) (T : Tree K d) : Prop where
  count : T.nodes.length + 1 = 2 * T.leaves.length
  nodup : T.leaves.Nodup
  leaf : ∀ p ∈ T.leaves, ∃ n xs, T.nodes[p]? = some n ∧ GoodLeaf target n xs
  inner : ∀ p n, T.nodes[p]? = some n → p ∉ T.leaves →
    ∃ l r, n.left = some l ∧ n.right = some r ∧ p < l ∧ p < r ∧ l < T.nodes.length ∧ r < T.nodes.length
  tile : ∀ x, InBox lo hi x → ∃ p n, (p ∈ T.leaves ∧ T.nodes[p]? = some n ∧ n.Has x) ∧
    ∀ p' n', p' ∈ T.leaves → T.nodes[p']? = some n' → n'.Has x → p' = p
  sub : ∀ p ∈ T.leaves, ∀ n, T.nodes[p]? = some n → ∀ x, n.Has x → InBox lo hi x
  vol : (T.leafNodes.map Node.vol).sum = ∏ i, (hi i - lo i)

theorem init_good {lo hi : Pt K d} (hbox : ∀ i, lo i < hi i) : Good lo hi target (Tree.init lo hi) := by
  have hhas : ∀ x, (Node.new (fun i => (hi i + lo i) / 2) (fun i => (hi i - lo i) / 2) (XF.fin 0) : Node K d).Has x ↔
      InBox lo hi x := by
    intro x
    unfold Node.Has InBox
    have e1 : ∀ i, (hi i + lo i) / 2 - (hi i - lo i) / 2 = lo i := fun i => by ring
    have e2 : ∀ i, (hi i + lo i) / 2 + (hi i - lo i) / 2 = hi i := fun i => by ring
    simp only [Node.new, e1, e2]
  refine ⟨rfl, by simp [Tree.init], ?_, ?_, ?_, ?_, ?_⟩
  · intro p hp
    have : p = 0 := by simpa [Tree.init] using hp
    subst this
    refine ⟨_, [], rfl, ⟨fun i => ?_, rfl, rfl, rfl, by simp⟩⟩
    have := hbox i
    simp [Node.new, this]
  · intro p n hp hn
    have : p ≠ 0 := by simpa [Tree.init] using hn
    rcases p with _ | p
    · exact absurd rfl this
    · simp [Tree.init] at hp
  · intro x hx
    refine ⟨0, _, ⟨by simp [Tree.init], rfl, (hhas x).2 hx⟩, ?_⟩
    intro p' n' hp' _ _
    simpa [Tree.init] using hp'
  · intro p hp n hn x hx
    have : p = 0 := by simpa [Tree.init] using hp
    subst this
    simp [Tree.init] at hn
    subst hn
    exact (hhas x).1 hx
  · simp [Tree.leafNodes, Tree.init, Node.vol, Node.new]
    refine Finset.prod_congr rfl fun i _ => ?_
    ring

/-- A node with its mass erased. -/
def strip (n : Node K d) : Node K d := { n with q := XF.fin 0 }

theorem get_of_strip {A B : List (Node K d)} (h : B.map strip = A.map strip) {p : ℕ} {n : Node K d} (hn : B[p]? = some n) :
    ∃ m, A[p]? = some m ∧ strip n = strip m := by
  have h1 : (B.map strip)[p]? = some (strip n) := by rw [List.getElem?_map, hn]; rfl
  rw [h, List.getElem?_map] at h1
  cases hA : A[p]? with
  | none => rw [hA] at h1; cases h1
  | some m =>
    rw [hA] at h1
    exact ⟨m, rfl, (Option.some.inj h1).symm⟩

theorem strip_has {n m : Node K d} (h : strip n = strip m) (x : Pt K d) : n.Has x ↔ m.Has x := by
  have h1 : n.center = m.center := show (strip n).center = (strip m).center by rw [h]
  have h2 : n.radius = m.radius := show (strip n).radius = (strip m).radius by rw [h]
  unfold Node.Has
  rw [h1, h2]

theorem strip_leaf {n m : Node K d} (h : strip n = strip m) {xs} (hm : GoodLeaf target m xs) : GoodLeaf target n xs := by
  have h1 : n.center = m.center := show (strip n).center = (strip m).center by rw [h]
  have h2 : n.radius = m.radius := show (strip n).radius = (strip m).radius by rw [h]
  have h3 : n.samples = m.samples := show (strip n).samples = (strip m).samples by rw [h]
  have h4 : n.N = m.N := show (strip n).N = (strip m).N by rw [h]
  have h5 : n.weights = m.weights := show (strip n).weights = (strip m).weights by rw [h]
  have h6 : n.sampler = m.sampler := by unfold Node.sampler; rw [h1, h2]
  exact ⟨by rw [h2]; exact hm.pos, by rw [h3]; exact hm.samples, by rw [h4]; exact hm.N,
    by rw [h5, h6]; exact hm.weights, fun x hx => (strip_has h x).2 (hm.mem x hx)⟩

theorem leafNodes_map {α : Type*} (f : Node K d → α) (hf : ∀ n m, strip n = strip m → f n = f m) {T T' : Tree K d}
    (h1 : T'.leaves = T.leaves) (h2 : T'.nodes.map strip = T.nodes.map strip) :
    T'.leafNodes.map f = T.leafNodes.map f := by
  unfold Tree.leafNodes
  rw [h1, List.map_filterMap, List.map_filterMap]
  congr 1
  funext p
  have h3 : (T'.nodes.map strip)[p]? = (T.nodes.map strip)[p]? := by rw [h2]
  rw [List.getElem?_map, List.getElem?_map] at h3
  cases hA : T'.nodes[p]? <;> cases hB : T.nodes[p]? <;> rw [hA, hB] at h3 <;> simp at h3 ⊢
  exact hf _ _ h3

theorem good_congr {lo hi : Pt K d} {T T' : Tree K d} (h : Good lo hi target T) (h1 : T'.leaves = T.leaves)
    (h2 : T'.nodes.map strip = T.nodes.map strip) : Good lo hi target T' := by
  have hlen : T'.nodes.length = T.nodes.length := by
    have := congrArg List.length h2
    simpa using this
  refine ⟨by rw [hlen, h1]; exact h.count, by rw [h1]; exact h.nodup, ?_, ?_, ?_, ?_, ?_⟩
  · intro p hp
    rw [h1] at hp
    obtain ⟨m, xs, h3, h4⟩ := h.leaf p hp
    obtain ⟨n, h5, h6⟩ := get_of_strip h2.symm h3
    exact ⟨n, xs, h5, strip_leaf h6.symm h4⟩
  · intro p n hn hp
    rw [h1] at hp
    obtain ⟨m, h3, h4⟩ := get_of_strip h2 hn
    obtain ⟨l, r, h5, h6, h7⟩ := h.inner p m h3 hp
    rw [hlen]
    exact ⟨l, r, (show (strip n).left = (strip m).left by rw [h4]).trans h5,
      (show (strip n).right = (strip m).right by rw [h4]).trans h6, h7⟩
  · intro x hx
    obtain ⟨p, m, ⟨h3, h4, h5⟩, h6⟩ := h.tile x hx
    obtain ⟨n, h7, h8⟩ := get_of_strip h2.symm h4
    refine ⟨p, n, ⟨by rw [h1]; exact h3, h7, (strip_has h8.symm x).2 h5⟩, ?_⟩
    intro p' n' h9 h10 h11
    rw [h1] at h9
    obtain ⟨m', h12, h13⟩ := get_of_strip h2 h10
    exact h6 p' m' h9 h12 ((strip_has h13 x).1 h11)
  · intro p hp n hn x hx
    rw [h1] at hp
    obtain ⟨m, h3, h4⟩ := get_of_strip h2 hn
    exact h.sub p hp m h3 x ((strip_has h4 x).1 hx)
  · rw [leafNodes_map Node.vol (fun n m h => by
      have h2 : n.radius = m.radius := show (strip n).radius = (strip m).radius by rw [h]
      unfold Node.vol
      rw [h2]) h1 h2]
    exact h.vol

theorem refreshQ_strip (nodes : List (Node K d)) (p : ℕ) : (refreshQ nodes p).map strip = nodes.map strip := by
  unfold refreshQ
  apply List.ext_getElem?
  intro i
  rw [List.getElem?_map, List.getElem?_map, List.getElem?_modify]
  cases nodes[i]? with
  | none => rfl
  | some n =>
    simp only [Option.map_map, Option.map_some, Function.comp]
    split <;> rfl

theorem foldl_refreshQ_strip (P : List ℕ) (nodes : List (Node K d)) :
    (P.foldl refreshQ nodes).map strip = nodes.map strip := by
  induction P generalizing nodes with
  | nil => rfl
  | cons p P ih => rw [List.foldl_cons, ih, refreshQ_strip]

/-- A leaf takes a sample of its box. -/
theorem good_add {lo hi : Pt K d} {T : Tree K d} (h : Good lo hi target T) {p : ℕ} (hp : p ∈ T.leaves) {n : Node K d}
    (hn : T.nodes[p]? = some n) {x : Pt K d} (hx : n.Has x) :
    Good lo hi target ⟨T.nodes.set p (n.addSample x (target x / n.sampler.prob1 x)), T.leaves⟩ := by
  have hlt : p < T.nodes.length := (List.getElem?_eq_some_iff.1 hn).1
  set n1 := n.addSample x (target x / n.sampler.prob1 x) with hn1
  have hget : ∀ (p' : ℕ) m, (T.nodes.set p n1)[p']? = some m →
      (p' = p ∧ m = n1) ∨ (p' ≠ p ∧ T.nodes[p']? = some m) := by
    intro p' m hm
    rw [List.getElem?_set] at hm
    by_cases he : p = p'
    · subst he
      rw [if_pos rfl, if_pos hlt] at hm
      exact Or.inl ⟨rfl, (Option.some.inj hm).symm⟩
    · rw [if_neg he] at hm
      exact Or.inr ⟨Ne.symm he, hm⟩
  have hset : ∀ (p' : ℕ) m, T.nodes[p']? = some m →
      ∃ m', (T.nodes.set p n1)[p']? = some m' ∧ (∀ y, m'.Has y ↔ m.Has y) ∧ m'.left = m.left ∧ m'.right = m.right := by
    intro p' m hm
    by_cases he : p = p'
    · subst he
      rw [hn] at hm
      cases hm
      exact ⟨n1, by rw [List.getElem?_set, if_pos rfl, if_pos hlt], fun y => Iff.rfl, rfl, rfl⟩
    · exact ⟨m, by rw [List.getElem?_set, if_neg he]; exact hm, fun y => Iff.rfl, rfl, rfl⟩
  refine ⟨by simpa using h.count, h.nodup, ?_, ?_, ?_, ?_, ?_⟩
  · intro p' hp'
    obtain ⟨m, xs, h3, h4⟩ := h.leaf p' hp'
    by_cases he : p' = p
    · subst he
      rw [hn] at h3
      cases h3
      exact ⟨n1, xs ++ [x], by simp [hlt], addSample_good h4 hx⟩
    · exact ⟨m, xs, by simp only; rw [List.getElem?_set, if_neg (Ne.symm he)]; exact h3, h4⟩
  · intro p' m hm hp'
    simp only [List.length_set]
    rcases hget p' m hm with ⟨rfl, rfl⟩ | ⟨_, h3⟩
    · exact absurd hp hp'
    · exact h.inner p' m h3 hp'
  · intro y hy
    obtain ⟨p', m, ⟨h3, h4, h5⟩, h6⟩ := h.tile y hy
    obtain ⟨m', h7, h8, -⟩ := hset p' m h4
    refine ⟨p', m', ⟨h3, h7, (h8 y).2 h5⟩, ?_⟩
    intro p'' n'' h9 h10 h11
    rcases hget p'' n'' h10 with ⟨rfl, rfl⟩ | ⟨_, h12⟩
    · exact h6 _ n h9 hn h11
    · exact h6 _ n'' h9 h12 h11
  · intro p' hp' m hm y hy
    rcases hget p' m hm with ⟨rfl, rfl⟩ | ⟨_, h12⟩
    · exact h.sub _ hp n hn y hy
    · exact h.sub _ hp' m h12 y hy
  · have : (Tree.leafNodes ⟨T.nodes.set p n1, T.leaves⟩).map Node.vol = T.leafNodes.map Node.vol := by
      unfold Tree.leafNodes
      rw [List.map_filterMap, List.map_filterMap]
      congr 1
      funext p'
      simp only [List.getElem?_set]
      by_cases he : p = p'
      · subst he
        rw [if_pos rfl, if_pos hlt, hn]
        rfl
      · rw [if_neg he]
    rw [this]
    exact h.vol

/-- What a successful split of a leaf looks like. -/
structure SplitSpec (target : Pt K d → XF K) (T T' : Tree K d) (p : ℕ) (j : Fin d) (n l r : Node K d) (xs : List (Pt K d)) : Prop where
  mem : p ∈ T.leaves
  node : T.nodes[p]? = some n
  nodes : T'.nodes = T.nodes.set p { n with left := some T.nodes.length, right := some (T.nodes.length + 1), samples := none } ++
    [l, r]
  leaves : T'.leaves = T.leaves.erase p ++ [T.nodes.length, T.nodes.length + 1]
  boxl : SameBox (children n j).1 l
  boxr : SameBox (children n j).2 r
  goodl : GoodLeaf target l (xs.filter fun x => decide (x j < n.center j))
  goodr : GoodLeaf target r (xs.filter fun x => !decide (x j < n.center j))
  leaf : GoodLeaf target n xs

theorem split_spec {lo hi : Pt K d} {T T' : Tree K d} (h : Good lo hi target T) {p : ℕ} {j : Fin d}
    (hs : T.split p j target = .ok T') : ∃ n l r xs, SplitSpec target T T' p j n l r xs := by
  unfold Tree.split at hs
  split at hs
  · cases hs
  · rename_i n hn
    split at hs
    · cases hs
    · rename_i xs hxs
      split at hs
      · cases hs
      · rename_i lr hlr
        split at hs
        · rename_i hp
          cases hs
          obtain ⟨m, ys, h1, h2⟩ := h.leaf p hp
          rw [hn] at h1
          cases h1
          have : ys = xs := by
            have := h2.samples.symm.trans hxs
            exact Option.some.inj this
          subst this
          obtain ⟨g1, g2⟩ := children_good (target := target) n j h2.pos
          obtain ⟨b1, b2, b3, b4⟩ := (push_fold j ys _ _ _ _ g1 g2).1 lr hlr
          rw [children_cut] at b3 b4
          exact ⟨n, lr.1, lr.2, ys, hp, hn, rfl, rfl, b1, b2, b3, b4, h2⟩
        · cases hs

theorem split_good {lo hi : Pt K d} {T T' : Tree K d} (h : Good lo hi target T) {p : ℕ} {j : Fin d} {n l r : Node K d}
    {xs : List (Pt K d)} (hs : SplitSpec target T T' p j n l r xs) : Good lo hi target T' := by
  have hlt : p < T.nodes.length := (List.getElem?_eq_some_iff.1 hs.node).1
  set L := T.nodes.length with hL
  have hleaflt : ∀ q ∈ T.leaves, q < L := by
    intro q hq
    obtain ⟨m, _, h1, -⟩ := h.leaf q hq
    exact (List.getElem?_eq_some_iff.1 h1).1
  have hlen : T'.nodes.length = L + 2 := by rw [hs.nodes]; simp [hL]
  have hgl : T'.nodes[L]? = some l := by
    rw [hs.nodes, List.getElem?_append_right (by simp [hL])]
    simp [hL]
  have hgr : T'.nodes[L + 1]? = some r := by
    rw [hs.nodes, List.getElem?_append_right (by simp [hL])]
    simp [hL]
  have hgo : ∀ q, q < L → q ≠ p → T'.nodes[q]? = T.nodes[q]? := by
    intro q hq hqp
    rw [hs.nodes, List.getElem?_append_left (by simpa using hq), List.getElem?_set, if_neg (Ne.symm hqp)]
  have hmem : ∀ q, q ∈ T'.leaves ↔ (q ∈ T.leaves ∧ q ≠ p) ∨ q = L ∨ q = L + 1 := by
    intro q
    rw [hs.leaves, List.mem_append, h.nodup.mem_erase_iff]
    simp only [List.mem_cons, List.not_mem_nil, or_false]
    tauto
  have hhasl : ∀ x, l.Has x ↔ n.Has x ∧ x j ≤ n.center j := fun x => (hs.boxl.has x).trans (children_left n j hs.leaf.pos x)
  have hhasr : ∀ x, r.Has x ↔ n.Has x ∧ n.center j < x j := fun x => (hs.boxr.has x).trans (children_right n j hs.leaf.pos x)
  refine ⟨?_, ?_, ?_, ?_, ?_, ?_, ?_⟩
  · have h1 : (T.leaves.erase p).length = T.leaves.length - 1 := List.length_erase_of_mem hs.mem
    have h2 := List.length_pos_of_mem hs.mem
    have h3 := h.count
    rw [hlen, hs.leaves, List.length_append, h1]
    simp
    omega
  · rw [hs.leaves, List.nodup_append]
    refine ⟨h.nodup.erase p, by simp, ?_⟩
    intro a ha b hb
    have := hleaflt a (List.mem_of_mem_erase ha)
    simp at hb
    omega
  · intro q hq
    rcases (hmem q).1 hq with ⟨h1, h2⟩ | rfl | rfl
    · obtain ⟨m, ys, h3, h4⟩ := h.leaf q h1
      exact ⟨m, ys, by rw [hgo q (hleaflt q h1) h2]; exact h3, h4⟩
    · exact ⟨l, _, hgl, hs.goodl⟩
    · exact ⟨r, _, hgr, hs.goodr⟩
  · intro q m hm hq
    have hqlt : q < L + 2 := by rw [← hlen]; exact (List.getElem?_eq_some_iff.1 hm).1
    have hq' := fun hh => hq ((hmem q).2 hh)
    have hqL : q < L := by
      by_contra hc
      have : q = L ∨ q = L + 1 := by omega
      exact hq' (Or.inr this)
    rw [hlen]
    by_cases hqp : q = p
    · subst hqp
      rw [hs.nodes, List.getElem?_append_left (by simpa using hqL), List.getElem?_set, if_pos rfl, if_pos hqL] at hm
      cases hm
      exact ⟨L, L + 1, rfl, rfl, by omega, by omega, by omega, by omega⟩
    · rw [hgo q hqL hqp] at hm
      obtain ⟨a, b, h1, h2, h3, h4, h5, h6⟩ := h.inner q m hm fun hh => hq' (Or.inl ⟨hh, hqp⟩)
      exact ⟨a, b, h1, h2, h3, h4, by omega, by omega⟩
  · intro x hx
    obtain ⟨q, m, ⟨h1, h2, h3⟩, h4⟩ := h.tile x hx
    have huniq : ∀ p' n', p' ∈ T'.leaves → T'.nodes[p']? = some n' → n'.Has x →
        (p' = q ∧ q ≠ p) ∨ (q = p ∧ p' = L ∧ l.Has x) ∨ (q = p ∧ p' = L + 1 ∧ r.Has x) := by
      intro p' n' h5 h6 h7
      rcases (hmem p').1 h5 with ⟨h8, h9⟩ | rfl | rfl
      · rw [hgo p' (hleaflt p' h8) h9] at h6
        have := h4 p' n' h8 h6 h7
        exact Or.inl ⟨this, this ▸ h9⟩
      · rw [hgl] at h6
        cases h6
        exact Or.inr (Or.inl ⟨(h4 p n hs.mem hs.node ((hhasl x).1 h7).1).symm, rfl, h7⟩)
      · rw [hgr] at h6
        cases h6
        exact Or.inr (Or.inr ⟨(h4 p n hs.mem hs.node ((hhasr x).1 h7).1).symm, rfl, h7⟩)
    by_cases hqp : q = p
    · subst hqp
      rw [hs.node] at h2
      cases h2
      rcases le_or_gt (x j) (n.center j) with hc | hc
      · refine ⟨L, l, ⟨(hmem _).2 (Or.inr (Or.inl rfl)), hgl, (hhasl x).2 ⟨h3, hc⟩⟩, ?_⟩
        intro p' n' h5 h6 h7
        rcases huniq p' n' h5 h6 h7 with ⟨-, h8⟩ | ⟨-, h8, -⟩ | ⟨-, -, h8⟩
        · exact absurd rfl h8
        · exact h8
        · exact absurd ((hhasr x).1 h8).2 (not_lt.2 hc)
      · refine ⟨L + 1, r, ⟨(hmem _).2 (Or.inr (Or.inr rfl)), hgr, (hhasr x).2 ⟨h3, hc⟩⟩, ?_⟩
        intro p' n' h5 h6 h7
        rcases huniq p' n' h5 h6 h7 with ⟨-, h8⟩ | ⟨-, -, h8⟩ | ⟨-, h8, -⟩
        · exact absurd rfl h8
        · exact absurd ((hhasl x).1 h8).2 (not_le.2 hc)
        · exact h8
    · refine ⟨q, m, ⟨(hmem _).2 (Or.inl ⟨h1, hqp⟩), by rw [hgo q (hleaflt q h1) hqp]; exact h2, h3⟩, ?_⟩
      intro p' n' h5 h6 h7
      rcases huniq p' n' h5 h6 h7 with ⟨h8, -⟩ | ⟨h8, -⟩ | ⟨h8, -⟩
      · exact h8
      · exact absurd h8 hqp
      · exact absurd h8 hqp
  · intro q hq m hm x hx
    rcases (hmem q).1 hq with ⟨h1, h2⟩ | rfl | rfl
    · rw [hgo q (hleaflt q h1) h2] at hm
      exact h.sub q h1 m hm x hx
    · rw [hgl] at hm
      cases hm
      exact h.sub p hs.mem n hs.node x ((hhasl x).1 hx).1
    · rw [hgr] at hm
      cases hm
      exact h.sub p hs.mem n hs.node x ((hhasr x).1 hx).1
  · have h1 : T'.leafNodes = (T.leaves.erase p).filterMap (T.nodes[·]?) ++ [l, r] := by
      unfold Tree.leafNodes
      rw [hs.leaves, List.filterMap_append]
      congr 1
      · refine List.filterMap_congr fun q hq => ?_
        have hq' := h.nodup.mem_erase_iff.1 hq
        exact hgo q (hleaflt q hq'.2) hq'.1
      · rw [List.filterMap_cons_some (b := l) hgl, List.filterMap_cons_some (b := r) hgr]
        rfl
    have h2 : T.leafNodes.Perm (n :: (T.leaves.erase p).filterMap (T.nodes[·]?)) := by
      unfold Tree.leafNodes
      have := (List.perm_cons_erase hs.mem).filterMap (T.nodes[·]?)
      rw [List.filterMap_cons_some hs.node] at this
      exact this
    have h3 := (h2.map Node.vol).sum_eq
    rw [h.vol] at h3
    have h4 : l.vol + r.vol = n.vol := by
      rw [← children_vol n j]
      unfold Node.vol
      rw [hs.boxl.radius, hs.boxr.radius]
    rw [h1, h3]
    simp [← h4]
    ring

/-! ### Selection -/

theorem select_mem (T : Tree K d) (rs : ℕ → K) : ∀ (fuel k : ℕ) (P : List ℕ) (id : ℕ) (P' : List ℕ) (id' : ℕ),
    T.select rs fuel k P id = .ok (P', id') → id' ∈ T.leaves
  | fuel, k, P, id, P', id', h => by
    unfold Tree.select at h
    split at h
    · rename_i hm
      cases h
      exact hm
    · split at h
      · cases h
      · split at h
        · cases h
        · split at h
          · split at h
            · exact select_mem T rs _ _ _ _ _ _ h
            · cases h
          · cases h

/-- The selection always ends at a leaf: children come after their parents. -/
theorem select_ok {lo hi : Pt K d} {T : Tree K d} (h : Good lo hi target T) (rs : ℕ → K) : ∀ (fuel k : ℕ) (P : List ℕ) (id : ℕ),
    id < T.nodes.length → T.nodes.length ≤ fuel + id → ∃ P' id', T.select rs fuel k P id = .ok (P', id')
  | fuel, k, P, id, h1, h2 => by
    unfold Tree.select
    split
    · exact ⟨_, _, rfl⟩
    · rename_i hm
      obtain ⟨l, r, e1, e2, h3, h4, h5, h6⟩ := h.inner id _ (List.getElem?_eq_getElem h1) hm
      rcases fuel with _ | fuel
      · omega
      · simp only [List.getElem?_eq_getElem h1, e1, e2, List.getElem?_eq_getElem h5, List.getElem?_eq_getElem h6]
        split
        · exact select_ok h rs fuel _ _ l h5 (by omega)
        · exact select_ok h rs fuel _ _ r h6 (by omega)

/-- Good trees stay good. -/
theorem iterate_spec {lo hi : Pt K d} {T : Tree K d} (h : Good lo hi target T) {c : Cfg K} {t k : ℕ} {it : Iter K d}
    {T' : Tree K d} (hs : iterate c target t it T = .ok (T', k)) :
    ∃ id n T2, id ∈ T.leaves ∧ T.nodes[id]? = some n ∧ n.Has (n.sampler.sample1 it.u) ∧
      T2.leaves = T.leaves ∧
      T2.nodes.map strip = (T.nodes.set id (n.addSample (n.sampler.sample1 it.u)
        (target (n.sampler.sample1 it.u) / n.sampler.prob1 (n.sampler.sample1 it.u)))).map strip ∧
      Good lo hi target T2 ∧ (T' = T2 ∧ k = 1 ∨ T2.split id it.j target = .ok T' ∧ k = 1 + (n.N + 1)) := by
  unfold iterate at hs
  split at hs
  · cases hs
  · rename_i P id hsel
    have hid := select_mem T it.rs _ _ _ _ _ _ hsel
    split at hs
    · cases hs
    · rename_i n hn
      obtain ⟨m, xs, e1, hleaf⟩ := h.leaf id hid
      rw [hn] at e1
      cases e1
      simp only at hs
      split at hs
      · cases hs
      · rename_i hprob
        have hx : n.Has (n.sampler.sample1 it.u) := (ltb_prob hleaf.pos _).1 (by simpa using hprob)
        set x := n.sampler.sample1 it.u
        set n1 := n.addSample x (target x / n.sampler.prob1 x) with hn1
        set n2 : Node K d := { n1 with q := (n1.mean + c.boost t n1.N) / totalEv c t ⟨T.nodes.set id n1, T.leaves⟩ }
          with hn2
        set T2 : Tree K d := ⟨P.dropLast.reverse.foldl refreshQ (T.nodes.set id n2), T.leaves⟩ with hT2
        have hstrip : T2.nodes.map strip = (T.nodes.set id n1).map strip := by
          rw [hT2]
          simp only
          rw [foldl_refreshQ_strip, List.map_set, List.map_set]
          rfl
        have hg1 := good_add h hid hn hx
        have hg2 : Good lo hi target T2 := good_congr hg1 rfl hstrip
        have hN : n2.N = n.N + 1 := by
          show (n.samples.getD [] ++ [x]).length = _
          rw [hleaf.samples, hleaf.N]
          simp
        refine ⟨id, n, T2, hid, hn, hx, rfl, hstrip, hg2, ?_⟩
        split at hs
        · right
          cases hsp : T2.split id it.j target with
          | error e => rw [hsp] at hs; cases hs
          | ok T3 =>
            rw [hsp] at hs
            have := Except.ok.inj hs
            simp only [Prod.mk.injEq] at this
            exact ⟨by rw [this.1], by rw [← this.2, hN]⟩
        · left
          have := Except.ok.inj hs
          simp only [Prod.mk.injEq] at this
          exact ⟨this.1.symm, this.2.symm⟩

theorem treach_good {lo hi : Pt K d} (hbox : ∀ i, lo i < hi i) {T : Tree K d} (h : TReach lo hi target T) :
    Good lo hi target T := by
  induction h with
  | new => exact init_good hbox
  | split _ hs ih =>
    obtain ⟨n, l, r, xs, h1⟩ := split_spec ih hs
    exact split_good ih h1
  | iter _ hs ih =>
    obtain ⟨id, n, T2, -, -, -, -, -, hg, h1⟩ := iterate_spec ih hs
    rcases h1 with ⟨rfl, -⟩ | ⟨h1, -⟩
    · exact hg
    · obtain ⟨n, l, r, xs, h2⟩ := split_spec hg h1
      exact split_good hg h2

end HiD
end Verif
