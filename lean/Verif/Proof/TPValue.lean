import Verif.Proof.TPGreedy

/-!
The value by which the tree pyramid sorts its leaves is the importance volume of the leaf, at every moment at which the
leaves are sorted.
-/

set_option linter.unusedSectionVars false
set_option autoImplicit false

namespace Verif

variable {K : Type*} [Field K] [LinearOrder K] [IsStrictOrderedRing K] {d : ℕ}

namespace TPTree

/-- The value is the mean of the weights times `radius^d`. -/
def MeanVal (n : TPNode K d) : Prop :=
  ∀ ws, n.weightHist = some ws → n.value = ws.sum / XF.fin (ws.length : K) * XF.fin (n.radius ^ d)

/-- The value is the last weight times `(2 radius)^d`. -/
def LastVal (n : TPNode K d) : Prop :=
  ∀ ws, n.weightHist = some ws → n.value = ws.getLastD XF.nan * XF.fin ((2 * n.radius) ^ d)

theorem mem_modify {α : Type*} {l : List α} {i : ℕ} {f : α → α} {a : α} (h : a ∈ l.modify i f) :
    a ∈ l ∨ ∃ b ∈ l, a = f b := by
  obtain ⟨k, hk⟩ := List.mem_iff_getElem?.1 h
  rw [List.getElem?_modify] at hk
  cases hl : l[k]? with
  | none => simp [hl] at hk
  | some b =>
    rw [hl] at hk
    have hb : b ∈ l := List.mem_iff_getElem?.2 ⟨k, hl⟩
    by_cases hik : i = k
    · simp [hik] at hk
      exact Or.inr ⟨b, hb, hk.symm⟩
    · simp [hik] at hk
      exact Or.inl (hk ▸ hb)

theorem sampleNode_mean {T T' : TPTree K d} {p : ℕ} {x : Pt K d} (h : T.sampleNode p x = .ok T')
    (hv : ∀ n ∈ T.nodes, MeanVal n) : ∀ n ∈ T'.nodes, MeanVal n := by
  unfold sampleNode at h
  split at h
  · cases h
  · split_ifs at h
    cases h
    intro n hn
    rcases mem_modify hn with hn | ⟨m, hm, rfl⟩
    · exact hv n hn
    · exact hv m hm

theorem weighNode_mean {T T' : TPTree K d} {p : ℕ} {t q : Pt K d → XF K} (h : T.weighNode p t q = .ok T')
    (hv : ∀ n ∈ T.nodes, MeanVal n) : ∀ n ∈ T'.nodes, MeanVal n := by
  unfold weighNode at h
  split at h
  · cases h
  · split_ifs at h
    cases h
    intro n hn
    rcases mem_modify hn with hn | ⟨m, hm, rfl⟩
    · exact hv n hn
    · intro ws hws
      simp only [TPNode.weigh, Option.some.injEq] at hws ⊢
      rw [hws]

theorem selfNormalize_nodes (T : TPTree K d) : T.selfNormalize.nodes = T.nodes := by
  unfold selfNormalize
  simp only
  split_ifs <;> rfl

theorem mem_takeSlot {j : ℤ} : ∀ {l : List (TPNode K d)} {n : TPNode K d}, n ∈ takeSlot j l →
    ∃ m ∈ l, n.weightHist = m.weightHist
  | [], n, h => by simp [takeSlot] at h
  | c :: cs, n, h => by
    simp only [takeSlot, List.mem_cons] at h
    rcases h with rfl | h
    · exact ⟨c, by simp, rfl⟩
    · exact ⟨n, by simp [h], rfl⟩

theorem insertChildren_mean (T : TPTree K d) (p : ℕ) (n : TPNode K d)
    (hv : ∀ n ∈ T.nodes, MeanVal n) : ∀ m ∈ (insertChildren T p n).1.nodes, MeanVal m := by
  intro m hm
  unfold insertChildren at hm
  simp only at hm
  rcases List.mem_or_eq_of_mem_set hm with hm | rfl
  · rcases List.mem_append.1 hm with hm | hm
    · exact hv m hm
    · obtain ⟨k, hk, he⟩ := mem_takeSlot hm
      unfold newNodes at hk
      obtain ⟨⟨c, i⟩, _, rfl⟩ := List.mem_map.1 hk
      intro ws hws
      rw [he] at hws
      simp [TPNode.new] at hws
  · intro ws hws
    simp at hws

theorem expandNodes_mean (ess : Option K) (nMin maxParts : ℕ) : ∀ (ps : List ℕ) (T T' : TPTree K d) (acc out : List ℕ),
    expandNodes ess nMin maxParts T ps acc = .ok (T', out) → (∀ n ∈ T.nodes, MeanVal n) → ∀ n ∈ T'.nodes, MeanVal n
  | [], T, T', acc, out, h, hv => by
    simp only [expandNodes, Except.ok.injEq, Prod.mk.injEq] at h
    rw [← h.1]; exact hv
  | p :: ps, T, T', acc, out, h, hv => by
    simp only [expandNodes] at h
    cases hx : T.expand p ess nMin with
    | error => simp [hx] at h
    | ok o =>
      obtain ⟨T1, o⟩ := o
      rw [hx] at h
      rcases expand_cases hx with ⟨rfl, rfl, _⟩ | ⟨n, hn, hlf, hse, rfl, rfl⟩
      · exact expandNodes_mean ess nMin maxParts ps _ _ _ _ h hv
      · simp only at h
        have h1 := insertChildren_mean T p n hv
        split_ifs at h
        · simp only [Except.ok.injEq, Prod.mk.injEq] at h
          rw [← h.1]; exact h1
        · exact expandNodes_mean ess nMin maxParts ps _ _ _ _ h h1

/-! ### Resampling -/

theorem refreshLeaf_last {T T' : TPTree K d} {p : ℕ} (h : T.refreshLeaf p = .ok T') :
    (∀ n, T'.nodes[p]? = some n → LastVal n) ∧ (∀ q, q ≠ p → T'.nodes[q]? = T.nodes[q]?) := by
  unfold refreshLeaf at h
  split at h
  · cases h
  · rename_i n hn
    split at h
    · rename_i w x hw hx
      split at h
      · rename_i wh ch hwh hch
        cases h
        have hp : p < T.nodes.length := (List.getElem?_eq_some_iff.1 hn).1
        refine ⟨?_, fun q hq => by simp [List.getElem?_set_ne (Ne.symm hq)]⟩
        intro m hm ws hws
        simp only [List.getElem?_set_self hp, Option.some.injEq] at hm
        subst hm
        simp only [Option.some.injEq] at hws
        subst hws
        simp only
        cases hh : n.weightHist with
        | none => simp [hh] at hwh
        | some l =>
          simp only [hh, Option.bind_some, setLast] at hwh
          split_ifs at hwh
          simp only [Option.some.injEq] at hwh
          rw [← hwh]
          simp [List.getLastD_eq_getLast?]
      · cases h
    · cases h

theorem foldlM_refresh_last : ∀ (ps : List ℕ) (T T' : TPTree K d), ps.foldlM refreshLeaf T = .ok T' →
    ∀ p, (p ∈ ps ∨ ∀ n, T.nodes[p]? = some n → LastVal n) → ∀ n, T'.nodes[p]? = some n → LastVal n
  | [], T, T', h, p, hp => by
    simp only [List.foldlM_nil, pure, Except.pure, Except.ok.injEq] at h
    subst h
    simpa using hp
  | q :: ps, T, T', h, p, hp => by
    simp only [List.foldlM_cons, bind, Except.bind] at h
    cases hq : T.refreshLeaf q with
    | error e => simp [hq] at h
    | ok T1 =>
      rw [hq] at h
      obtain ⟨h1, h2⟩ := refreshLeaf_last hq
      refine foldlM_refresh_last ps T1 T' h p ?_
      by_cases hpq : p = q
      · subst hpq; exact Or.inr h1
      · rcases hp with hp | hp
        · rcases List.mem_cons.1 hp with hp | hp
          · exact absurd hp hpq
          · exact Or.inl hp
        · right
          rw [h2 p hpq]; exact hp

theorem resample_last {T T' : TPTree K d} (I : WF T) {t : Pt K d → XF K} {u : ℕ → Pt K d}
    (h : T.resample t u = .ok T') : ∀ p ∈ T'.leaves, ∀ n, T'.nodes[p]? = some n → LastVal n := by
  intro p hp
  rw [(resample_same I h).leaves] at hp
  unfold resample at h
  refine foldlM_refresh_last _ _ _ h p (Or.inl ?_)
  have h1 := resampleArrays_same I t u
  have h2 := selfNormalize_same (h1.inv I)
  rw [h2.leaves, h1.leaves]
  exact hp

end TPTree

namespace TPSampler

open TPTree

/-- Invariant between iterations. -/
def Valued (res : Bool) (T : TPTree K d) : Prop :=
  (res = false ∧ ∀ n ∈ T.nodes, MeanVal n) ∨
  (res = true ∧ (T.nodes.length = 1 ∨ ∀ p ∈ T.leaves, ∀ n, T.nodes[p]? = some n → LastVal n))

theorem visit_mean {target : Pt K d → XF K} {draw : ℕ → Pt K d} {S S' : TPSampler K d} {p : ℕ}
    (h : visit target draw S p = .ok S') (hv : ∀ n ∈ S.T.nodes, MeanVal n) : ∀ n ∈ S'.T.nodes, MeanVal n := by
  unfold visit at h
  split at h
  · cases h
  · rename_i n hn
    simp only [bind, Except.bind, pure, Except.pure] at h
    cases h1 : S.T.sampleNode p (n.sampler.sample1 (draw p)) with
    | error e => simp [h1] at h
    | ok T1 =>
      simp only [h1] at h
      cases h2 : T1.weighNode p target n.sampler.prob1 with
      | error e => simp [h2] at h
      | ok T2 =>
        simp only [h2, Except.ok.injEq] at h
        subst h
        exact weighNode_mean h2 (sampleNode_mean h1 hv)

theorem visits_mean {target : Pt K d → XF K} {draw : ℕ → Pt K d} : ∀ (ps : List ℕ) (S S' : TPSampler K d),
    ps.foldlM (visit target draw) S = .ok S' → (∀ n ∈ S.T.nodes, MeanVal n) → ∀ n ∈ S'.T.nodes, MeanVal n
  | [], S, S', h, hv => by
    simp only [List.foldlM_nil, pure, Except.pure, Except.ok.injEq] at h
    rw [← h]; exact hv
  | p :: ps, S, S', h, hv => by
    simp only [List.foldlM_cons, bind, Except.bind] at h
    cases h1 : visit target draw S p with
    | error e => simp [h1] at h
    | ok S1 =>
      rw [h1] at h
      exact visits_mean ps S1 S' h (visit_mean h1 hv)

theorem updateModel_tree {S S' : TPSampler K d} (h : S.updateModel = .ok S') : S'.T = S.T.selfNormalize := by
  unfold updateModel at h
  simp only [Except.map] at h
  split at h
  · cases h
  · simp only [Except.ok.injEq] at h
    rw [← h]

theorem updateModel_valued {res : Bool} {c : Pt K d} {R : K} {e : ℕ} {S S' : TPSampler K d}
    (h : S.updateModel = .ok S') (r : Reached c R S.T e) (hv : Valued res S.T) : Valued res S'.T := by
  rw [updateModel_tree h]
  unfold Valued at hv ⊢
  rw [selfNormalize_nodes, (selfNormalize_same r.wf).leaves]
  exact hv

/-- Parts of an iteration. -/
theorem iterate_parts {target : Pt K d → XF K} {cfg : TPConfig K} {it : TPIter K d} {S S' : TPSampler K d}
    (h : iterate cfg target it S = .ok S') : ∃ T1 new S2,
      expandNodes cfg.essTarget cfg.nMin cfg.parallel S.T (sortedLeaves S.T) [] = .ok (T1, new) ∧
      new.foldlM (visit target it.draw) { S with T := T1 } = .ok S2 ∧
      ((cfg.leafResampling = true ∧ S2.T.resample target it.redraw = .ok S'.T) ∨
        (cfg.leafResampling = false ∧ S' = S2)) := by
  unfold iterate at h
  simp only [bind, Except.bind, pure, Except.pure] at h
  cases hx : expandNodes cfg.essTarget cfg.nMin cfg.parallel S.T (sortedLeaves S.T) [] with
  | error e => simp [hx] at h
  | ok o =>
    obtain ⟨T1, new⟩ := o
    simp only [hx] at h
    cases hy : new.foldlM (visit target it.draw) { S with T := T1 } with
    | error e => simp [hy] at h
    | ok S2 =>
      simp only [hy] at h
      refine ⟨T1, new, S2, rfl, hy, ?_⟩
      split_ifs at h with hl
      · left
        cases hz : S2.T.resample target it.redraw with
        | error e => simp [hz] at h
        | ok T3 =>
          simp only [hz, Except.ok.injEq] at h
          rw [← h]
          exact ⟨hl, rfl⟩
      · right
        simp only [Except.ok.injEq] at h
        exact ⟨by simpa using hl, h.symm⟩

theorem visits_same {target : Pt K d → XF K} {draw : ℕ → Pt K d} : ∀ (ps : List ℕ) (S S' : TPSampler K d),
    ps.foldlM (visit target draw) S = .ok S' → Same S.T S'.T
  | [], S, S', h => by
    simp only [List.foldlM_nil, pure, Except.pure, Except.ok.injEq] at h
    rw [← h]; exact Same.refl _
  | p :: ps, S, S', h => by
    simp only [List.foldlM_cons, bind, Except.bind] at h
    cases h1 : visit target draw S p with
    | error e => simp [h1] at h
    | ok S1 =>
      rw [h1] at h
      refine Same.trans ?_ (visits_same ps S1 S' h)
      unfold visit at h1
      split at h1
      · cases h1
      · rename_i n hn
        simp only [bind, Except.bind, pure, Except.pure] at h1
        cases g1 : S.T.sampleNode p (n.sampler.sample1 (draw p)) with
        | error e => simp [g1] at h1
        | ok T1 =>
          simp only [g1] at h1
          cases g2 : T1.weighNode p target n.sampler.prob1 with
          | error e => simp [g2] at h1
          | ok T2 =>
            simp only [g2, Except.ok.injEq] at h1
            subst h1
            exact (sampleNode_same g1).trans (weighNode_same g2)

/-- The leaves after an iteration are those of the expanded tree. -/
theorem iterate_leaves {target : Pt K d → XF K} {c : Pt K d} {R : K} {cfg : TPConfig K} {it : TPIter K d}
    {S S' : TPSampler K d} (r : Ready target c R S) (h : iterate cfg target it S = .ok S') : ∃ T1 new,
      expandNodes cfg.essTarget cfg.nMin cfg.parallel S.T (sortedLeaves S.T) [] = .ok (T1, new) ∧
      S'.T.leaves = T1.leaves := by
  obtain ⟨e, hr⟩ := r.reached
  have hperm := sortedLeaves_perm S.T
  have hnd : (sortedLeaves S.T).Nodup := hperm.nodup_iff.2 hr.wf.leavesNodup
  have hmem : ∀ p ∈ sortedLeaves S.T, p ∈ S.T.leaves := fun p hp => hperm.mem_iff.1 hp
  obtain ⟨T1, new, S2, h1, h2, h3⟩ := iterate_parts h
  obtain ⟨⟨e1, r1⟩, _⟩ := expandNodes_spec cfg.essTarget cfg.nMin cfg.parallel (sortedLeaves S.T) S.T T1 e []
    new hr h1 (by simpa using hnd) (by simpa using hmem)
  have s2 := visits_same new _ _ h2
  refine ⟨T1, new, h1, ?_⟩
  rcases h3 with ⟨_, h3⟩ | ⟨_, h3⟩
  · rw [(resample_same (s2.inv r1.wf) h3).leaves, s2.leaves]
  · rw [h3, s2.leaves]

theorem iterate_valued {target : Pt K d → XF K} {c : Pt K d} {R : K} {cfg : TPConfig K} {it : TPIter K d}
    {S S' : TPSampler K d} (r : Ready target c R S) (hv : Valued cfg.leafResampling S.T)
    (h : iterate cfg target it S = .ok S') : Valued cfg.leafResampling S'.T := by
  obtain ⟨e, hr⟩ := r.reached
  have hperm := sortedLeaves_perm S.T
  have hnd : (sortedLeaves S.T).Nodup := hperm.nodup_iff.2 hr.wf.leavesNodup
  have hmem : ∀ p ∈ sortedLeaves S.T, p ∈ S.T.leaves := fun p hp => hperm.mem_iff.1 hp
  obtain ⟨T1, new, S2, h1, h2, h3⟩ := iterate_parts h
  obtain ⟨⟨e1, r1⟩, _⟩ := expandNodes_spec cfg.essTarget cfg.nMin cfg.parallel (sortedLeaves S.T) S.T T1 e []
    new hr h1 (by simpa using hnd) (by simpa using hmem)
  have s2 := visits_same new _ _ h2
  rcases h3 with ⟨hl, h3⟩ | ⟨hl, h3⟩
  · exact Or.inr ⟨hl, Or.inr (resample_last (s2.inv r1.wf) h3)⟩
  · rw [hl] at hv
    rcases hv with ⟨_, hv⟩ | ⟨h, _⟩
    · rw [h3]
      exact Or.inl ⟨hl, visits_mean new _ _ h2 (expandNodes_mean _ _ _ _ _ _ _ _ h1 hv)⟩
    · cases h

theorem loop_valued {target : Pt K d → XF K} {c : Pt K d} {R : K} (hR : 0 < R) {cfg : TPConfig K} (nS : ℕ) :
    ∀ (its : List (TPIter K d)) (late : Bool) (S S' : TPSampler K d) (b : Bool), (∀ it ∈ its, it.Valid) →
    Ready target c R S → Valued cfg.leafResampling S.T → loop cfg target nS late its S = .ok (S', b) →
    Valued cfg.leafResampling S'.T
  | [], late, S, S', b, hv, r, hval, h => by
    unfold loop at h
    simp only [bind, Except.bind, pure, Except.pure] at h
    split at h
    · cases h
    · simp only [Except.ok.injEq, Prod.mk.injEq] at h
      rw [← h.1]; exact hval
  | it :: its, late, S, S', b, hv, r, hval, h => by
    unfold loop at h
    simp only [bind, Except.bind, pure, Except.pure] at h
    split at h
    · cases h
    · split_ifs at h
      · obtain ⟨S1, h1, r1, _⟩ := iterate_spec hR cfg (hv it (by simp)) r
        rw [h1] at h
        exact loop_valued hR nS its it.late S1 S' b (fun i hi => hv i (by simp [hi])) r1 (iterate_valued r hval h1) h
      · simp only [Except.ok.injEq, Prod.mk.injEq] at h
        rw [← h.1]; exact hval

theorem initRoot_valued {target : Pt K d → XF K} {c : Pt K d} {R : K} (hR : 0 < R) {S S' : TPSampler K d} {u : Pt K d}
    (hu : ∀ i, 0 ≤ u i ∧ u i < 1) (hb : Blank c R S ∨ Ready target c R S) {res : Bool} (hv : Valued res S.T)
    (h : initRoot target u S = .ok S') : Valued res S'.T := by
  unfold initRoot at h
  split at h
  · cases h
  · rename_i root hroot
    split_ifs at h with hc
    · simp only [bind, Except.bind] at h
      cases h1 : S.T.sampleNode 0 (root.sampler.sample1 u) with
      | error e => simp [h1] at h
      | ok T1 =>
        simp only [h1] at h
        cases h2 : T1.weighNode 0 target root.sampler.prob1 with
        | error e => simp [h2] at h
        | ok T2 =>
          simp only [h2] at h
          have hs := (sampleNode_same h1).trans (weighNode_same h2)
          have hT := updateModel_tree h
          simp only at hT
          unfold Valued
          rw [hT, selfNormalize_nodes]
          rcases hv with ⟨he, hv⟩ | ⟨he, _⟩
          · exact Or.inl ⟨he, weighNode_mean h2 (sampleNode_mean h1 hv)⟩
          · refine Or.inr ⟨he, Or.inl ?_⟩
            rw [hs.length]
            rcases hb with hb | hb
            · simpa using hb.reached.nNodes
            · exfalso
              obtain ⟨e, r⟩ := hb.reached
              rcases r.wf.leafOf 0 root hroot with hl | ⟨j, _, hj⟩
              · have := r.wf.del 0 root hroot hl
                rw [hc.1] at this
                cases this
              · obtain ⟨n, ch, wh, g1, g2, g3, _⟩ := hb.hist 0 (List.mem_iff_getElem?.2 ⟨j, hj⟩)
                rw [hroot] at g1
                obtain rfl : root = n := by simpa using g1
                rw [hc.2] at g3
                cases g3
    · simp only [Except.ok.injEq] at h
      rw [← h]; exact hv

theorem call_valued {target : Pt K d → XF K} {c : Pt K d} {R : K} (hR : 0 < R) {cfg : TPConfig K} {t : K}
    (ht : cfg.essTarget = some t) {x : TPCall K d} (hx : x.InRange) {S S' : TPSampler K d} {o}
    (hb : Blank c R S ∨ Ready target c R S) (hv : Valued cfg.leafResampling S.T)
    (h : importanceSampleSimple cfg target x.n x.u0 x.its S = .ok (S', o)) : Valued cfg.leafResampling S'.T := by
  obtain ⟨S0, h0, r0⟩ := initRoot_spec hR hx.1 hb
  obtain ⟨S1, b, h1, r1⟩ := loop_spec hR cfg ht x.n x.its false S0 hx.2 r0
  have v1 := loop_valued hR x.n x.its false S0 S1 b hx.2 r0 (initRoot_valued hR hx.1 hb hv h0) h1
  unfold importanceSampleSimple at h
  simp only [h0, h1, bind, Except.bind, pure, Except.pure] at h
  cases b with
  | false =>
    simp only [Bool.false_eq_true, if_false, Except.ok.injEq, Prod.mk.injEq] at h
    rw [← h.1]; exact v1
  | true =>
    simp only [if_true] at h
    cases h2 : S1.updateModel with
    | error e => simp [h2] at h
    | ok S2 =>
      simp only [h2] at h
      split at h
      · cases h
      · simp only [Except.ok.injEq, Prod.mk.injEq] at h
        rw [← h.1]
        obtain ⟨e, hr⟩ := r1.reached
        exact updateModel_valued h2 hr v1

end TPSampler
end Verif
