import Verif.Proof.HiDaisee

/-!
# HiDaisee: C35, C36
-/

set_option linter.unusedSectionVars false
set_option autoImplicit false

namespace Verif
namespace HiD

variable {K : Type*} [Field K] [LinearOrder K] [IsStrictOrderedRing K] {d : ℕ} {target : Pt K d → XF K} {lo hi : Pt K d}

/-- **C35**. After any history of leaf splits and iterations every point of the space (lower faces excluded) lies in
exactly one leaf, leaves do not reach beyond the space, their volumes add up to that of the space, and there are `2L-1`
nodes for `L` leaves. -/
theorem C35_tiling (hbox : ∀ i, lo i < hi i) {T : Tree K d} (h : TReach lo hi target T) :
    (∀ x, InBox lo hi x → ∃! p, p ∈ T.leaves ∧ ∃ n, T.nodes[p]? = some n ∧ n.Has x) ∧
    (∀ p ∈ T.leaves, ∃ n, T.nodes[p]? = some n ∧ ∀ x, n.Has x → InBox lo hi x) ∧
    (T.leafNodes.map Node.vol).sum = ∏ i, (hi i - lo i) ∧
    T.leaves.Nodup ∧ T.nodes.length = 2 * T.leaves.length - 1 := by
  have hg := treach_good hbox h
  refine ⟨?_, ?_, hg.vol, hg.nodup, by have := hg.count; omega⟩
  · intro x hx
    obtain ⟨p, n, ⟨h1, h2, h3⟩, h4⟩ := hg.tile x hx
    refine ⟨p, ⟨h1, n, h2, h3⟩, ?_⟩
    rintro p' ⟨h5, n', h6, h7⟩
    exact h4 p' n' h5 h6 h7
  · intro p hp
    obtain ⟨n, xs, h1, -⟩ := hg.leaf p hp
    exact ⟨n, h1, hg.sub p hp n h1⟩

/-- **C36**, one split: it raises ValueError exactly if a stored sample lies on the cutting plane. Otherwise the samples
are distributed over the two new leaves, each sample in the box of its leaf, with weight target times volume of
the leaf; nothing else changes. -/
theorem C36_split (hbox : ∀ i, lo i < hi i) {T : Tree K d} (h : TReach lo hi target T) {p : ℕ} (hp : p ∈ T.leaves)
    (j : Fin d) :
    ∃ n xs, T.nodes[p]? = some n ∧ n.samples = some xs ∧
      ((∃ x ∈ xs, x j = n.center j) → T.split p j target = .error .value) ∧
      ((∀ x ∈ xs, x j ≠ n.center j) → ∃ T' l r ls rs, T.split p j target = .ok T' ∧
        T'.nodes[T.nodes.length]? = some l ∧ T'.nodes[T.nodes.length + 1]? = some r ∧
        T'.leaves.Perm (T.nodes.length :: (T.nodes.length + 1) :: T.leaves.erase p) ∧
        (∀ q ∈ T.leaves, q ≠ p → T'.nodes[q]? = T.nodes[q]?) ∧
        l.samples = some ls ∧ r.samples = some rs ∧ (ls ++ rs).Perm xs ∧
        (∀ x ∈ ls, l.Has x) ∧ (∀ x ∈ rs, r.Has x) ∧
        l.weights = (ls.map fun x => target x / XF.fin (1 / l.vol)) ∧
        r.weights = (rs.map fun x => target x / XF.fin (1 / r.vol))) := by
  have hg := treach_good hbox h
  obtain ⟨n, xs, hn, hleaf⟩ := hg.leaf p hp
  refine ⟨n, xs, hn, hleaf.samples, ?_, ?_⟩
  · rintro ⟨x, hx, hxj⟩
    obtain ⟨g1, g2⟩ := children_good (target := target) n j hleaf.pos
    obtain ⟨a1, a2, -⟩ := push_fold j xs _ _ _ _ g1 g2
    unfold Tree.split
    simp only [hn, hleaf.samples]
    cases hf : xs.foldlM (push target j) (children n j) with
    | error e =>
      rw [(a2 e hf).1]
    | ok lr =>
      exfalso
      obtain ⟨-, b2, -, b4⟩ := a1 lr hf
      rw [children_cut] at b4
      have hm : x ∈ [] ++ xs.filter fun x => !decide (x j < n.center j) := by
        simp [hx, hxj]
      have := (b2.has x).1 (b4.mem x hm)
      have := ((children_right n j hleaf.pos x).1 this).2
      rw [hxj] at this
      exact lt_irrefl _ this
  · intro hx
    obtain ⟨g1, g2⟩ := children_good (target := target) n j hleaf.pos
    obtain ⟨-, -, a3⟩ := push_fold j xs _ _ _ _ g1 g2
    obtain ⟨lr, hlr⟩ := a3 (by
      intro x hxs
      rw [children_cut]
      have hm := hleaf.mem x hxs
      split
      · rename_i hc
        exact (children_left n j hleaf.pos x).2 ⟨hm, hc.le⟩
      · rename_i hc
        exact (children_right n j hleaf.pos x).2 ⟨hm, lt_of_le_of_ne (not_lt.1 hc) (Ne.symm (hx x hxs))⟩)
    have hs : ∃ T', T.split p j target = .ok T' := by
      unfold Tree.split
      simp only [hn, hleaf.samples]
      rw [hlr]
      simp only
      rw [if_pos hp]
      exact ⟨_, rfl⟩
    obtain ⟨T', hT'⟩ := hs
    obtain ⟨n', l, r, ys, hsp⟩ := split_spec hg hT'
    have hn' : n' = n := by
      have := hsp.node
      rw [hn] at this
      exact (Option.some.inj this).symm
    subst hn'
    have hys : ys = xs := Option.some.inj (hsp.leaf.samples.symm.trans hleaf.samples)
    subst hys
    have hlt : p < T.nodes.length := (List.getElem?_eq_some_iff.1 hn).1
    have hw : ∀ (m : Node K d) zs, GoodLeaf target m zs → m.weights = zs.map fun x => target x / XF.fin (1 / m.vol) := by
      intro m zs hm
      rw [hm.weights]
      refine List.map_congr_left fun x hx => ?_
      rw [prob1_has hm.pos (hm.mem x hx)]
    refine ⟨T', l, r, _, _, hT', ?_, ?_, ?_, ?_, hsp.goodl.samples, hsp.goodr.samples, List.filter_append_perm _ _, hsp.goodl.mem,
      hsp.goodr.mem, hw _ _ hsp.goodl, hw _ _ hsp.goodr⟩
    · rw [hsp.nodes, List.getElem?_append_right (by simp)]
      simp
    · rw [hsp.nodes, List.getElem?_append_right (by simp)]
      simp
    · rw [hsp.leaves]
      exact List.perm_append_comm
    · intro q hq hqp
      obtain ⟨m, _, h1, -⟩ := hg.leaf q hq
      have hql : q < T.nodes.length := (List.getElem?_eq_some_iff.1 h1).1
      rw [hsp.nodes, List.getElem?_append_left (by simpa using hql), List.getElem?_set, if_neg (Ne.symm hqp)]

/-! ### Calls -/

/-- All samples held by the leaves. -/
def allSamples (T : Tree K d) : List (Pt K d) := T.leafNodes.flatMap fun n => n.samples.getD []

theorem leafNodes_perm {T : Tree K d} {p : ℕ} (hp : p ∈ T.leaves) {n : Node K d} (hn : T.nodes[p]? = some n) :
    T.leafNodes.Perm (n :: (T.leaves.erase p).filterMap (T.nodes[·]?)) := by
  unfold Tree.leafNodes
  have := (List.perm_cons_erase hp).filterMap (T.nodes[·]?)
  rw [List.filterMap_cons_some hn] at this
  exact this

theorem split_samples {T T' : Tree K d} (hg : Good lo hi target T) {p : ℕ} {j : Fin d} (hs : T.split p j target = .ok T') :
    (allSamples T').Perm (allSamples T) := by
  obtain ⟨n, l, r, xs, hsp⟩ := split_spec hg hs
  have hlt : p < T.nodes.length := (List.getElem?_eq_some_iff.1 hsp.node).1
  have h1 : T'.leafNodes = (T.leaves.erase p).filterMap (T.nodes[·]?) ++ [l, r] := by
    unfold Tree.leafNodes
    rw [hsp.leaves, List.filterMap_append]
    congr 1
    · refine List.filterMap_congr fun q hq => ?_
      have hq' := hg.nodup.mem_erase_iff.1 hq
      obtain ⟨m, _, h1, -⟩ := hg.leaf q hq'.2
      have hql : q < T.nodes.length := (List.getElem?_eq_some_iff.1 h1).1
      rw [hsp.nodes, List.getElem?_append_left (by simpa using hql), List.getElem?_set, if_neg (Ne.symm hq'.1)]
    · rw [hsp.nodes, List.filterMap_cons_some (b := l) (by rw [List.getElem?_append_right (by simp)]; simp),
        List.filterMap_cons_some (b := r) (by rw [List.getElem?_append_right (by simp)]; simp)]
      rfl
  have h2 : (allSamples T).Perm (xs ++ ((T.leaves.erase p).filterMap (T.nodes[·]?)).flatMap fun n => n.samples.getD []) := by
    unfold allSamples
    have := (leafNodes_perm hsp.mem hsp.node).flatMap_right fun n => n.samples.getD []
    simpa [hsp.leaf.samples] using this
  refine List.Perm.trans ?_ h2.symm
  unfold allSamples
  rw [h1, List.flatMap_append]
  refine List.perm_append_comm.trans (List.Perm.append_right _ ?_)
  simp only [List.flatMap_cons, List.flatMap_nil, hsp.goodl.samples, hsp.goodr.samples, Option.getD_some, List.append_nil]
  exact List.filter_append_perm _ _

theorem iterate_samples {T T' : Tree K d} (hg : Good lo hi target T) {c : Cfg K} {t k : ℕ} {it : Iter K d}
    (hs : iterate c target t it T = .ok (T', k)) : ∃ x, (allSamples T').Perm (allSamples T ++ [x]) := by
  obtain ⟨id, n, T2, h1, h2, h3, h4, h5, h6, h7⟩ := iterate_spec hg hs
  obtain ⟨m, xs, e1, hleaf⟩ := hg.leaf id h1
  rw [h2] at e1
  cases e1
  set x := n.sampler.sample1 it.u with hx
  set n1 := n.addSample x (target x / n.sampler.prob1 x) with hn1
  have hlt : id < T.nodes.length := (List.getElem?_eq_some_iff.1 h2).1
  have hT2 : allSamples T2 = allSamples ⟨T.nodes.set id n1, T.leaves⟩ := by
    have := leafNodes_map (T := ⟨T.nodes.set id n1, T.leaves⟩) (T' := T2) (fun n => n.samples.getD []) (fun n m h => by
      have h3 : n.samples = m.samples := show (strip n).samples = (strip m).samples by rw [h]
      rw [h3]) h4 h5
    unfold allSamples
    rw [List.flatMap_def, List.flatMap_def, this]
  have hadd : (allSamples ⟨T.nodes.set id n1, T.leaves⟩).Perm (allSamples T ++ [x]) := by
    have a1 := (leafNodes_perm h1 h2).flatMap_right fun n => n.samples.getD []
    have a2 := (leafNodes_perm (T := ⟨T.nodes.set id n1, T.leaves⟩) (p := id) h1 (n := n1) (by simp [hlt])).flatMap_right
      fun n => n.samples.getD []
    have a3 : ((T.leaves.erase id).filterMap ((T.nodes.set id n1)[·]?)) = (T.leaves.erase id).filterMap (T.nodes[·]?) := by
      refine List.filterMap_congr fun q hq => ?_
      have hq' := hg.nodup.mem_erase_iff.1 hq
      rw [List.getElem?_set, if_neg (Ne.symm hq'.1)]
    simp only [a3] at a2
    unfold allSamples
    refine a2.trans ?_
    refine List.Perm.trans ?_ (a1.append_right [x]).symm
    have hs1 : n1.samples = some (xs ++ [x]) := (addSample_good hleaf h3).samples
    simp only [List.flatMap_cons, hs1, hleaf.samples, Option.getD_some, List.append_assoc]
    exact List.Perm.append_left _ List.perm_append_comm
  rcases h7 with ⟨rfl, -⟩ | ⟨h7, -⟩
  · exact ⟨x, hT2 ▸ hadd⟩
  · exact ⟨x, (split_samples h6 h7).trans (hT2 ▸ hadd)⟩

theorem iterations_spec {c : Cfg K} : ∀ (its : List (Iter K d)) (t : ℕ) (S S' : Sampler K d), TReach lo hi target S.T →
    (∀ T, TReach lo hi target T → Good lo hi target T) → iterations c target t its S = .ok S' →
    TReach lo hi target S'.T ∧ (∃ new, new.length = its.length ∧ (allSamples S'.T).Perm (allSamples S.T ++ new)) ∧
    S'.numQ = S.numQ + its.length
  | [], t, S, S', hr, _, h => by
    cases h
    exact ⟨hr, ⟨[], rfl, by simp⟩, rfl⟩
  | it :: its, t, S, S', hr, hgood, h => by
    unfold iterations at h
    split at h
    · cases h
    · rename_i T k hit
      obtain ⟨h1, ⟨new, h2, h3⟩, h4⟩ := iterations_spec its _ _ S' (hr.iter hit) hgood h
      obtain ⟨x, h5⟩ := iterate_samples (hgood _ hr) hit
      refine ⟨h1, ⟨x :: new, by simp [h2], ?_⟩, by rw [h4]; simp; omega⟩
      refine h3.trans ?_
      have := h5.append_right new
      simpa using this

theorem importance_spec (hbox : ∀ i, lo i < hi i) {c : Cfg K} {n : ℕ} {its : ℕ → Iter K d} {S S' : Sampler K d}
    (hr : TReach lo hi target S.T) (h : importanceSample c target n its S = .ok S') :
    TReach lo hi target S'.T ∧ S'.samples = allSamples S'.T ∧ S'.weights = S'.T.leafNodes.flatMap Node.weights ∧
    (∃ new, new.length = n - S.samples.length ∧ (allSamples S'.T).Perm (allSamples S.T ++ new)) ∧
    S'.numQ = S.numQ + (n - S.samples.length) := by
  unfold importanceSample at h
  split at h
  · cases h
  · rename_i S1 h1
    obtain ⟨a1, ⟨new, a2, a3⟩, a4⟩ := iterations_spec _ _ _ _ hr (fun T => treach_good hbox) h1
    rw [List.length_map, List.length_range] at a2 a4
    unfold updateModel at h
    cases hw : setWeights S1.T.leafNodes.length (S1.T.leafNodes.map Node.mean) with
    | error e => rw [hw] at h; cases h
    | ok w =>
      rw [hw] at h
      have h := Except.ok.inj h
      subst h
      exact ⟨a1, rfl, rfl, ⟨new, a2, a3⟩, a4⟩

theorem reach_spec (hbox : ∀ i, lo i < hi i) {c : Cfg K} {S : Sampler K d} (h : Reach lo hi c target S) :
    TReach lo hi target S.T ∧ S.samples = allSamples S.T ∧ S.weights = S.T.leafNodes.flatMap Node.weights := by
  induction h with
  | new => exact ⟨.new, by simp [reset, allSamples, Tree.leafNodes, Tree.init, Node.new],
      by simp [reset, Tree.leafNodes, Tree.init, Node.new]⟩
  | call _ hc ih =>
    obtain ⟨h1, h2, h3, -⟩ := importance_spec hbox ih.1 hc
    exact ⟨h1, h2, h3⟩

theorem samples_weights (L : List (Node K d)) (hL : ∀ n ∈ L, ∃ xs, GoodLeaf target n xs) :
    List.Forall₂ (fun x w => ∃ n ∈ L, n.Has x ∧ w = target x / XF.fin (1 / n.vol)) (L.flatMap fun n => n.samples.getD [])
      (L.flatMap Node.weights) := by
  have key : ∀ L' : List (Node K d), (∀ n ∈ L', n ∈ L) →
      List.Forall₂ (fun x w => ∃ n ∈ L, n.Has x ∧ w = target x / XF.fin (1 / n.vol))
        (L'.flatMap fun n => n.samples.getD []) (L'.flatMap Node.weights) := by
    intro L'
    induction L' with
    | nil => intro _; exact List.Forall₂.nil
    | cons n L' ih =>
      intro h
      obtain ⟨xs, hn⟩ := hL n (h n List.mem_cons_self)
      rw [List.flatMap_cons, List.flatMap_cons]
      refine List.rel_append ?_ (ih fun m hm => h m (List.mem_cons_of_mem _ hm))
      rw [hn.samples, hn.weights, Option.getD_some, List.forall₂_map_right_iff, List.forall₂_same]
      intro x hx
      exact ⟨n, h n List.mem_cons_self, hn.mem x hx, by rw [prob1_has hn.pos (hn.mem x hx)]⟩
  exact key L fun n hn => hn

/-- **C36**, calls: `importance_sample(n)` returns exactly `max n (previous size)` samples: those returned before, in some
order, and the new ones. Every one lies in the box of a leaf and has the weight target times volume of that leaf. -/
theorem C36_calls (hbox : ∀ i, lo i < hi i) {c : Cfg K} {S S' : Sampler K d} (hS : Reach lo hi c target S) {n : ℕ}
    {its : ℕ → Iter K d} (h : importanceSample c target n its S = .ok S') :
    S'.samples.length = max n S.samples.length ∧ (∃ new, S'.samples.Perm (S.samples ++ new)) ∧
    List.Forall₂ (fun x w => ∃ m ∈ S'.T.leafNodes, m.Has x ∧ w = target x / XF.fin (1 / m.vol)) S'.samples S'.weights ∧
    (∀ x ∈ S'.samples, InBox lo hi x) := by
  obtain ⟨r1, r2, -⟩ := reach_spec hbox hS
  obtain ⟨h1, h2, h3, ⟨new, h4, h5⟩, -⟩ := importance_spec hbox r1 h
  have hg := treach_good hbox h1
  have hleaf : ∀ m ∈ S'.T.leafNodes, ∃ p ∈ S'.T.leaves, S'.T.nodes[p]? = some m := by
    intro m hm
    obtain ⟨p, hp, hpm⟩ := List.mem_filterMap.1 hm
    exact ⟨p, hp, hpm⟩
  have hgl : ∀ m ∈ S'.T.leafNodes, ∃ xs, GoodLeaf target m xs := by
    intro m hm
    obtain ⟨p, hp, hpm⟩ := hleaf m hm
    obtain ⟨m', xs, e1, e2⟩ := hg.leaf p hp
    rw [hpm] at e1
    cases e1
    exact ⟨xs, e2⟩
  rw [← r2, ← h2] at h5
  refine ⟨?_, ⟨new, h5⟩, ?_, ?_⟩
  · rw [h5.length_eq, List.length_append, h4]
    omega
  · rw [h2, h3]
    exact samples_weights _ hgl
  · intro x hx
    rw [h2] at hx
    obtain ⟨m, hm, hxm⟩ := List.mem_flatMap.1 hx
    obtain ⟨p, hp, hpm⟩ := hleaf m hm
    obtain ⟨xs, e2⟩ := hgl m hm
    rw [e2.samples] at hxm
    exact hg.sub p hp m hpm x (e2.mem x hxm)

/-! ### Examples -/

/-- Two samples in the unit interval, then a cut: one sample each. -/
example : ∃ T T' : Tree ℚ 1, TReach ![0] ![1] (fun x => XF.fin (x 0)) T ∧
    (T.nodes[0]?.map Node.samples) = some (some [![1/4], ![3/4]]) ∧
    T.split 0 0 (fun x => XF.fin (x 0)) = .ok T' ∧
    T'.leaves = [1, 2] ∧ T'.nodes.map Node.samples = [none, some [![1/4]], some [![3/4]]] ∧
    T'.nodes.map Node.weights = [[XF.fin (1/4), XF.fin (3/4)], [XF.fin (1/8)], [XF.fin (3/8)]] := by
  have h : (match iterate (⟨fun _ _ => XF.fin 0, 100, 1/2⟩ : Cfg ℚ) (fun x => XF.fin (x 0)) 0 ⟨fun _ => 0, ![1/4], 0⟩
      (Tree.init ![0] ![1] : Tree ℚ 1) with
    | .ok (T1, _) =>
      match iterate (⟨fun _ _ => XF.fin 0, 100, 1/2⟩ : Cfg ℚ) (fun x => XF.fin (x 0)) 1 ⟨fun _ => 0, ![3/4], 0⟩ T1 with
      | .ok (T2, _) =>
        match T2.split 0 0 (fun x => XF.fin (x 0)) with
        | .ok T' => decide ((T2.nodes[0]?.map Node.samples) = some (some [![1/4], ![3/4]]) ∧ T'.leaves = [1, 2] ∧
            T'.nodes.map Node.samples = [none, some [![1/4]], some [![3/4]]] ∧
            T'.nodes.map Node.weights = [[XF.fin (1/4), XF.fin (3/4)], [XF.fin (1/8)], [XF.fin (3/8)]])
        | _ => false
      | _ => false
    | _ => false) = true := by decide +kernel
  split at h
  · rename_i T1 _ h1
    split at h
    · rename_i T2 _ h2
      split at h
      · rename_i T' h3
        obtain ⟨h4, h5⟩ := of_decide_eq_true h
        exact ⟨T2, T', (TReach.new.iter h1).iter h2, h4, h3, h5⟩
      · cases h
    · cases h
  · cases h

end HiD
end Verif
