import Verif.Proof.TPHist

set_option linter.unusedSectionVars false
set_option autoImplicit false

namespace Verif

variable {K : Type*} [Field K] [LinearOrder K] [IsStrictOrderedRing K] {d : ℕ}

namespace TPTree

theorem HistOK.selfNormalize {target : Pt K d → XF K} {T : TPTree K d} (I : WF T) {p : ℕ} (h : HistOK target T p) :
    HistOK target T.selfNormalize p := by
  obtain ⟨n, ch, wh, h1, h2, h3, h4, h5, w0, ds, h6, h7⟩ := h
  unfold TPTree.selfNormalize
  simp only
  split_ifs with hs
  · refine ⟨n, ch, wh, h1, h2, h3, h4, h5, w0, ?_⟩
    have hpN : p < T.nodes.length := (List.getElem?_eq_some_iff.1 h1).1
    obtain ⟨b, hb⟩ : ∃ b, T.leavesIdx[p]? = some b := ⟨_, List.getElem?_eq_getElem (by rw [I.lenMask]; exact hpN)⟩
    have : (T.weights.zipIdx.zip T.leavesIdx)[p]? = some ((ds.foldl (fun a b => a / b) w0, p), b) := by
      rw [List.getElem?_zip_eq_some]
      refine ⟨?_, hb⟩
      rw [List.getElem?_zipIdx, h7]
      simp
    simp only [maskUpdate, List.getElem?_map, this]
    cases b
    · exact ⟨ds, h6, by simp⟩
    · exact ⟨ds ++ [(maskSelect T.leavesIdx T.weights).sum], h6, by simp⟩
  · exact ⟨n, ch, wh, h1, h2, h3, h4, h5, w0, ds, h6, h7⟩

theorem HalfOK.selfNormalize {target : Pt K d → XF K} {T : TPTree K d} (I : WF T) {p : ℕ} (h : HalfOK target T p) :
    HalfOK target T.selfNormalize p := by
  obtain ⟨n, ch, wh, x, w, h1, h2, h3, h4, h5, h6, h7, h8⟩ := h
  unfold TPTree.selfNormalize
  simp only
  split_ifs with hs
  · have hpN : p < T.nodes.length := (List.getElem?_eq_some_iff.1 h1).1
    obtain ⟨b, hb⟩ : ∃ b, T.leavesIdx[p]? = some b := ⟨_, List.getElem?_eq_getElem (by rw [I.lenMask]; exact hpN)⟩
    have : (T.weights.zipIdx.zip T.leavesIdx)[p]? = some ((w, p), b) := by
      rw [List.getElem?_zip_eq_some]
      refine ⟨?_, hb⟩
      rw [List.getElem?_zipIdx, h6]
      simp
    refine ⟨n, ch, wh, x, if b then w / (maskSelect T.leavesIdx T.weights).sum else w, h1, h2, h3, h4, h5, ?_, h7, ?_⟩
    · simp only [maskUpdate, List.getElem?_map, this]
      simp
    · cases b
      · simpa using h8
      · simpa using h8.div _
  · exact ⟨n, ch, wh, x, w, h1, h2, h3, h4, h5, h6, h7, h8⟩

theorem reSample_inbox (c : Pt K d) (r : K) (hr : 0 < r) (u : Pt K d) (hu : ∀ i, 0 ≤ u i ∧ u i < 1) :
    InHalfOpen c r (reSample u c r) := by
  intro i
  unfold reSample
  have h1 := (hu i).1
  have h2 := (hu i).2
  constructor <;> nlinarith

theorem resampleArrays_half {target : Pt K d → XF K} {T : TPTree K d} (I : WF T) {u : ℕ → Pt K d}
    (hu : ∀ p i, 0 ≤ u p i ∧ u p i < 1) {p : ℕ} (hp : p ∈ T.leaves) (hr : 0 < (T.box p).2) (h : HistOK target T p) :
    HalfOK target (T.resampleArrays target u) p := by
  obtain ⟨n, ch, wh, h1, h2, h3, h4, _⟩ := h
  have hpN : p < T.nodes.length := (List.getElem?_eq_some_iff.1 h1).1
  have hb : T.box p = (n.center, n.radius) := by simp [box, h1]
  rw [hb] at hr
  have hm := (I.mask_iff p).2 hp
  have hpts : ((T.centers.zip T.radii).zipIdx.map fun (a : (Pt K d × K) × ℕ) =>
      match a with | ((c, r), i) => (reSample (u i) c r, r))[p]? = some (reSample (u p) n.center n.radius, n.radius) := by
    have hc : (T.centers.zip T.radii)[p]? = some (n.center, n.radius) := by
      rw [List.getElem?_zip_eq_some, I.centers, I.radii, List.getElem?_map, List.getElem?_map, h1]
      simp
    rw [List.getElem?_map, List.getElem?_zipIdx, hc]
    simp
  obtain ⟨s, hs⟩ : ∃ s, T.samples[p]? = some s := ⟨_, List.getElem?_eq_getElem (by rw [I.lenS]; exact hpN)⟩
  obtain ⟨w, hw⟩ : ∃ s, T.weights[p]? = some s := ⟨_, List.getElem?_eq_getElem (by rw [I.lenW]; exact hpN)⟩
  refine ⟨n, ch, wh, reSample (u p) n.center n.radius,
    target (reSample (u p) n.center n.radius) / (XF.fin 1 / XF.fin ((2 * n.radius) ^ d)), h1, h2, h3, h4, ?_, ?_,
    reSample_inbox _ _ hr _ (hu p), ⟨_, [], Or.inr rfl, rfl⟩⟩
  · simp only [resampleArrays, List.getElem?_map]
    have : ((T.samples.zip ((T.centers.zip T.radii).zipIdx.map fun (a : (Pt K d × K) × ℕ) =>
      match a with | ((c, r), i) => (reSample (u i) c r, r))).zip T.leavesIdx)[p]?
        = some ((s, (reSample (u p) n.center n.radius, n.radius)), true) := by
      rw [List.getElem?_zip_eq_some, List.getElem?_zip_eq_some]
      exact ⟨⟨hs, hpts⟩, hm⟩
    rw [this]
    simp
  · simp only [resampleArrays, List.getElem?_map]
    have : ((T.weights.zip ((T.centers.zip T.radii).zipIdx.map fun (a : (Pt K d × K) × ℕ) =>
      match a with | ((c, r), i) => (reSample (u i) c r, r))).zip T.leavesIdx)[p]?
        = some ((w, (reSample (u p) n.center n.radius, n.radius)), true) := by
      rw [List.getElem?_zip_eq_some, List.getElem?_zip_eq_some]
      exact ⟨⟨hw, hpts⟩, hm⟩
    rw [this]
    simp

theorem refreshLeaf_spec {target : Pt K d → XF K} {T : TPTree K d} (I : WF T) {p : ℕ} (h : HalfOK target T p) :
    ∃ T', T.refreshLeaf p = .ok T' ∧ HistOK target T' p ∧
      ∀ q, q ≠ p → T'.nodes[q]? = T.nodes[q]? ∧ T'.samples[q]? = T.samples[q]? ∧ T'.weights[q]? = T.weights[q]? := by
  obtain ⟨n, ch, wh, x, w, h1, h2, h3, h4, h5, h6, h7, h8⟩ := h
  have hpN : p < T.nodes.length := (List.getElem?_eq_some_iff.1 h1).1
  have hni := I.idx p n h1
  have hwne : wh ≠ [] := by
    intro h0
    have := h4.len
    rw [h0] at this
    exact h4.ne (List.length_eq_zero_iff.1 this)
  have e1 : n.weightHist.bind (setLast · w) = some (wh.dropLast ++ [w]) := by
    simp [h3, setLast, hwne]
  have e2 : n.coordsHist.bind (setLast · x) = some (ch.dropLast ++ [x]) := by
    simp [h2, setLast, h4.ne]
  refine ⟨{ T with nodes := T.nodes.set p { n with weight := w, weightHist := some (wh.dropLast ++ [w]), coordsHist := some (ch.dropLast ++ [x]), value := w * XF.fin ((2 * n.radius) ^ d) } }, ?_, ?_, ?_⟩
  · unfold refreshLeaf
    simp only [h1, hni, h5, h6, e1, e2]
  · refine ⟨_, _, _, List.getElem?_set_self hpN, rfl, rfl, h4.replaceLast h7 h8, ?_, w, [], by simp, h6⟩
    simp [h5]
  · intro q hq
    refine ⟨?_, rfl, rfl⟩
    simp only
    rw [List.getElem?_set_ne (fun h => hq h.symm)]

theorem foldlM_refresh {target : Pt K d → XF K} : ∀ (l : List ℕ) (T : TPTree K d) (L : List ℕ), WF T →
    (∀ p ∈ l, p ∈ L) → (∀ p ∈ L, HalfOK target T p) →
    ∃ T', l.foldlM refreshLeaf T = .ok T' ∧ Same T T' ∧ (∀ p ∈ L, HalfOK target T' p) ∧
      (∀ p ∈ L, HistOK target T p ∨ p ∈ l → HistOK target T' p)
  | [], T, L, I, hl, hL => ⟨T, rfl, Same.refl T, hL, fun p _ h => by simpa using h⟩
  | p :: l, T, L, I, hl, hL => by
    obtain ⟨T1, hr, hh, ho⟩ := refreshLeaf_spec I (hL p (hl p (by simp)))
    have hs := refreshLeaf_same hr
    have hL1 : ∀ q ∈ L, HalfOK target T1 q := by
      intro q hq
      by_cases hqp : q = p
      · subst hqp; exact hh.half
      · obtain ⟨a, b, c⟩ := ho q hqp
        exact (hL q hq).congr a b c
    obtain ⟨T', h1, h2, h3, h4⟩ := foldlM_refresh l T1 L (hs.inv I) (fun q hq => hl q (by simp [hq])) hL1
    refine ⟨T', by simp [List.foldlM_cons, hr, bind, Except.bind, h1], hs.trans h2, h3, ?_⟩
    intro q hq hqq
    apply h4 q hq
    by_cases hqp : q = p
    · subst hqp; exact Or.inl hh
    · rcases hqq with hqq | hqq
      · obtain ⟨a, b, c⟩ := ho q hqp
        exact Or.inl (hqq.congr a b c)
      · rcases List.mem_cons.1 hqq with h | h
        · exact absurd h hqp
        · exact Or.inr h

theorem resample_spec {target : Pt K d → XF K} {T : TPTree K d} (I : WF T) {u : ℕ → Pt K d}
    (hu : ∀ p i, 0 ≤ u p i ∧ u p i < 1) (hr : ∀ p ∈ T.leaves, 0 < (T.box p).2)
    (h : ∀ p ∈ T.leaves, HistOK target T p) :
    ∃ T', T.resample target u = .ok T' ∧ Same T T' ∧ ∀ p ∈ T'.leaves, HistOK target T' p := by
  have s1 := resampleArrays_same I target u
  have I1 := s1.inv I
  have s2 := selfNormalize_same I1
  have I2 := s2.inv I1
  obtain ⟨T', h1, h2, _, h4⟩ := foldlM_refresh (target := target) ((T.resampleArrays target u).selfNormalize).leaves
    ((T.resampleArrays target u).selfNormalize) ((T.resampleArrays target u).selfNormalize).leaves I2
    (fun p hp => hp) (by
      intro p hp
      rw [s2.leaves, s1.leaves] at hp
      exact (resampleArrays_half I hu hp (hr p hp) (h p hp)).selfNormalize I1)
  refine ⟨T', h1, (s1.trans s2).trans h2, ?_⟩
  intro p hp
  rw [h2.leaves] at hp
  exact h4 p hp (Or.inr hp)

/-! ### `_get_samples` does not raise -/

theorem mapM_some {α β : Type*} (f : α → Option β) (g : α → β) : ∀ (l : List α), (∀ a ∈ l, f a = some (g a)) →
    l.mapM f = some (l.map g)
  | [], _ => rfl
  | a :: l, h => by
    rw [List.mapM_cons, h a (by simp), mapM_some f g l (fun b hb => h b (by simp [hb]))]
    rfl

theorem writeSlice_ok {α : Type*} (l : List α) (i : ℕ) (v : List α) (h : i + v.length ≤ l.length) :
    ∃ l', writeSlice l i v = .ok l' ∧ l'.length = l.length := by
  refine ⟨_, by unfold writeSlice; rw [if_pos h], ?_⟩
  simp
  omega

theorem foldlM_write : ∀ (hs : List (List (Pt K d) × List (XF K))) (k : ℕ) (acc : List (Pt K d) × List (XF K)) (N : ℕ),
    acc.1.length = N → acc.2.length = N → (∀ h ∈ hs, h.1.length = h.2.length ∧ 1 ≤ h.2.length) →
    k + (hs.map fun h => h.2.length).sum ≤ N →
    ∃ out, out.1.length = N ∧ out.2.length = N ∧ (hs.zipIdx k).foldlM (fun (acc : List (Pt K d) × List (XF K)) (x : (List (Pt K d) × List (XF K)) × ℕ) =>
            if x.1.1.length = x.1.2.length then do
              let s ← writeSlice acc.1 x.2 x.1.1
              let w ← writeSlice acc.2 x.2 x.1.2
              return (s, w)
            else .error PyErr.value) acc = .ok out
  | [], k, acc, N, h1, h2, _, _ => ⟨acc, h1, h2, rfl⟩
  | h :: hs, k, acc, N, h1, h2, hh, hN => by
    obtain ⟨hl, hpos⟩ := hh h (by simp)
    simp only [List.map_cons, List.sum_cons] at hN
    obtain ⟨s, hs1, hs2⟩ := writeSlice_ok acc.1 k h.1 (by omega)
    obtain ⟨w, hw1, hw2⟩ := writeSlice_ok acc.2 k h.2 (by omega)
    have := foldlM_write hs (k + 1) (s, w) N (by simp [hs2, h1]) (by simp [hw2, h2])
      (fun g hg => hh g (by simp [hg])) (by omega)
    obtain ⟨out, ho1, ho2, hout⟩ := this
    refine ⟨out, ho1, ho2, ?_⟩
    rw [List.zipIdx_cons, List.foldlM_cons]
    simp only [hl, if_true, hs1, hw1, bind, Except.bind, pure, Except.pure]
    simpa only [bind, Except.bind, pure, Except.pure] using hout

theorem getSamples_ok {target : Pt K d → XF K} {T : TPTree K d} (t : K)
    (h : ∀ p ∈ T.leaves, HistOK target T p) : ∃ out, T.getSamples (some t) = .ok out := by
  unfold getSamples
  simp only
  split_ifs with ht
  · exact ⟨_, rfl⟩
  · have hm : T.leaves.mapM (fun p => (T.nodes[p]?).bind fun n =>
          (n.coordsHist.bind fun ch => n.weightHist.map fun wh => (ch, wh)))
        = some (T.leaves.map fun p => (((T.nodes[p]?).bind fun n => n.coordsHist).getD [],
            ((T.nodes[p]?).bind fun n => n.weightHist).getD [])) := by
      apply mapM_some
      intro p hp
      obtain ⟨n, ch, wh, h1, h2, h3, _⟩ := h p hp
      simp [h1, h2, h3]
    rw [hm]
    simp only
    have := foldlM_write (T.leaves.map fun p => (((T.nodes[p]?).bind fun n => n.coordsHist).getD [],
            ((T.nodes[p]?).bind fun n => n.weightHist).getD [])) 0
      (List.replicate ((T.leaves.map fun p => (((T.nodes[p]?).bind fun n => n.coordsHist).getD [],
            ((T.nodes[p]?).bind fun n => n.weightHist).getD [])).map fun h => h.2.length).sum (fun _ => 0),
       List.replicate ((T.leaves.map fun p => (((T.nodes[p]?).bind fun n => n.coordsHist).getD [],
            ((T.nodes[p]?).bind fun n => n.weightHist).getD [])).map fun h => h.2.length).sum (XF.fin 0))
      _ (by simp; rfl) (by simp) (by
        intro g hg
        obtain ⟨p, hp, rfl⟩ := List.mem_map.1 hg
        obtain ⟨n, ch, wh, h1, h2, h3, h4, _⟩ := h p hp
        simp only [h1, h2, h3, Option.bind_some, Option.getD_some]
        refine ⟨h4.len, ?_⟩
        rw [← h4.len]
        exact List.length_pos_iff.2 h4.ne) (by simp)
    obtain ⟨out, _, _, hout⟩ := this
    simp only [bind, Except.bind, pure, Except.pure] at hout ⊢
    rw [hout]
    exact ⟨_, rfl⟩

end TPTree

namespace TPSampler

open TPTree

/-- The generator outputs of the iteration are in `[0, 1)`. -/
def _root_.Verif.TPIter.Valid (it : TPIter K d) : Prop :=
  (∀ p i, 0 ≤ it.draw p i ∧ it.draw p i < 1) ∧ (∀ p i, 0 ≤ it.redraw p i ∧ it.redraw p i < 1)

/-- Invariant between iterations. -/
structure Ready (target : Pt K d → XF K) (c : Pt K d) (R : K) (S : TPSampler K d) : Prop where
  reached : ∃ e, Reached c R S.T e
  hist : ∀ p ∈ S.T.leaves, HistOK target S.T p

theorem visit_spec {target : Pt K d → XF K} {c : Pt K d} {R : K} (hR : 0 < R) {S : TPSampler K d} {e : ℕ}
    (r : Reached c R S.T e) {draw : ℕ → Pt K d} (hu : ∀ p i, 0 ≤ draw p i ∧ draw p i < 1) {p : ℕ} (hp : p ∈ S.T.leaves)
    (h : Fresh S.T p ∨ HistOK target S.T p) :
    ∃ S', visit target draw S p = .ok S' ∧ Same S.T S'.T ∧ HistOK target S'.T p ∧
      S'.numQ = S.numQ + 1 ∧ S'.numPi = S.numPi + 1 ∧ S'.numQEvals = S.numQEvals + 1 ∧
      (∀ q, q ≠ p → S'.T.nodes[q]? = S.T.nodes[q]? ∧ S'.T.samples[q]? = S.T.samples[q]? ∧
        S'.T.weights[q]? = S.T.weights[q]?) := by
  obtain ⟨n, hn, _⟩ := r.wf.leaf_node hp
  have hr : 0 < n.radius := by
    obtain ⟨k, hk⟩ := (r.tiles hR.le).radii (S.T.box p) (List.mem_map.2 ⟨p, hp, rfl⟩)
    have hb : S.T.box p = (n.center, n.radius) := by simp [box, hn]
    rw [hb] at hk
    simp only at hk
    rw [hk]; positivity
  obtain ⟨T1, T2, h1, h2, h3, h4, h5⟩ := sampleWeigh r.wf hn hr h (draw p) (hu p)
  refine ⟨{ S with T := T2, numQ := S.numQ + 1, numPi := S.numPi + 1, numQEvals := S.numQEvals + 1 }, ?_, h3, h4, rfl,
    rfl, rfl, h5⟩
  unfold visit
  simp [hn, h1, h2, bind, Except.bind, pure, Except.pure]

theorem visits_spec {target : Pt K d → XF K} {c : Pt K d} {R : K} (hR : 0 < R) {draw : ℕ → Pt K d}
    (hu : ∀ p i, 0 ≤ draw p i ∧ draw p i < 1) : ∀ (ps : List ℕ) (S : TPSampler K d) (e : ℕ), Reached c R S.T e →
    (∀ p ∈ ps, p ∈ S.T.leaves) → (∀ p ∈ S.T.leaves, HistOK target S.T p ∨ (p ∈ ps ∧ Fresh S.T p)) →
    ∃ S', ps.foldlM (visit target draw) S = .ok S' ∧ Same S.T S'.T ∧ (∀ p ∈ S'.T.leaves, HistOK target S'.T p) ∧
      S'.numQ = S.numQ + ps.length ∧ S'.numPi = S.numPi + ps.length ∧ S'.numQEvals = S.numQEvals + ps.length
  | [], S, e, r, hl, hh => ⟨S, rfl, Same.refl _, fun p hp => by simpa using hh p hp, rfl, rfl, rfl⟩
  | p :: ps, S, e, r, hl, hh => by
    obtain ⟨S1, h1, h2, h3, hc1, hc2, hc3, h4⟩ := visit_spec hR r hu (hl p (by simp))
      ((hh p (hl p (by simp))).symm.imp (fun h => h.2) id)
    obtain ⟨S', g1, g2, g3, gc1, gc2, gc3⟩ := visits_spec hR hu ps S1 e (r.same h2)
      (fun q hq => by rw [h2.leaves]; exact hl q (by simp [hq])) (by
        intro q hq
        rw [h2.leaves] at hq
        by_cases hqp : q = p
        · subst hqp; exact Or.inl h3
        · obtain ⟨a, b, c⟩ := h4 q hqp
          rcases hh q hq with h | ⟨hm, n, hn, hf⟩
          · exact Or.inl (h.congr a b c)
          · right
            refine ⟨?_, n, by rw [a, hn], hf⟩
            rcases List.mem_cons.1 hm with h | h
            · exact absurd h hqp
            · exact h)
    refine ⟨S', by simp [List.foldlM_cons, h1, bind, Except.bind, g1], h2.trans g2, g3, ?_, ?_, ?_⟩
    · rw [gc1, hc1]; simp; omega
    · rw [gc2, hc2]; simp; omega
    · rw [gc3, hc3]; simp; omega

theorem sortedLeaves_perm (T : TPTree K d) : (sortedLeaves T).Perm T.leaves := by
  unfold sortedLeaves
  exact List.perm_insertionSort _ _

/-- One iteration of the sampling loop: does not raise, keeps the invariant, counts every operation. -/
theorem iterate_spec {target : Pt K d → XF K} {c : Pt K d} {R : K} (hR : 0 < R) (cfg : TPConfig K) {it : TPIter K d}
    (hit : it.Valid) {S : TPSampler K d} (r : Ready target c R S) :
    ∃ S', iterate cfg target it S = .ok S' ∧ Ready target c R S' ∧ S'.numPi - S.numPi = S'.numQ - S.numQ ∧
      S.numQ ≤ S'.numQ ∧ S.numPi ≤ S'.numPi ∧ S'.numQEvals - S.numQEvals = S'.numQ - S.numQ ∧
      S.numQEvals ≤ S'.numQEvals := by
  obtain ⟨e, hr⟩ := r.reached
  have hperm := sortedLeaves_perm S.T
  have hnd : (sortedLeaves S.T).Nodup := hperm.nodup_iff.2 hr.wf.leavesNodup
  have hmem : ∀ p ∈ sortedLeaves S.T, p ∈ S.T.leaves := fun p hp => hperm.mem_iff.1 hp
  obtain ⟨⟨T1, new⟩, hx⟩ := expandNodes_ok cfg.essTarget cfg.nMin cfg.parallel (sortedLeaves S.T) S.T e [] hr hnd hmem
    (by
      intro p hp n hn
      obtain ⟨m, ch, wh, h1, _, h3, _⟩ := r.hist p (hmem p hp)
      rw [hn] at h1
      obtain rfl : n = m := by simpa using h1
      simp [h3])
  obtain ⟨⟨e1, r1⟩, _, a3, a4, _⟩ := expandNodes_spec cfg.essTarget cfg.nMin cfg.parallel (sortedLeaves S.T) S.T T1 e []
    new hr hx (by simpa using hnd) (by simpa using hmem)
  obtain ⟨S2, b1, b2, b3, bc1, bc2, bc3⟩ := visits_spec (target := target) hR hit.1 new { S with T := T1 } e1 r1 a3 (by
    intro p hp
    rcases a4 p hp with ⟨g1, g2, g3, g4⟩ | ⟨g1, g2⟩
    · exact Or.inl ((r.hist p g1).congr g2 g3 g4)
    · exact Or.inr ⟨g1, g2⟩)
  simp only at bc1 bc2 bc3 b2
  have r2 := r1.same b2
  unfold iterate
  simp only [hx, b1, bind, Except.bind, pure, Except.pure]
  split_ifs with hl
  · obtain ⟨T3, c1, c2, c3⟩ := resample_spec (target := target) r2.wf hit.2 (fun p hp => by
      obtain ⟨k, hk⟩ := (r2.tiles hR.le).radii (S2.T.box p) (List.mem_map.2 ⟨p, hp, rfl⟩)
      rw [hk]; positivity) b3
    rw [c1]
    refine ⟨_, rfl, ⟨⟨e1, r2.same c2⟩, c3⟩, ?_⟩
    simp only
    omega
  · refine ⟨_, rfl, ⟨⟨e1, r2⟩, b3⟩, ?_⟩
    omega

theorem updateModel_spec {target : Pt K d → XF K} {c : Pt K d} {R : K} {S : TPSampler K d} (r : Ready target c R S) :
    ∃ S', S.updateModel = .ok S' ∧ Ready target c R S' ∧ S'.T = S.T.selfNormalize ∧ S'.numQ = S.numQ ∧
      S'.numPi = S.numPi ∧ S'.numQEvals = S.numQEvals := by
  obtain ⟨e, hr⟩ := r.reached
  have I := hr.wf
  have len : ∀ {α : Type _} [Inhabited α] (l : List α), l.length = S.T.nodes.length →
      (maskSelect S.T.leavesIdx l).length = S.T.leaves.length := by
    intro α _ l hl
    have := (I.maskSelect_perm l hl (fun p => l[p]!) (by
      intro p hp
      have hlt : p < l.length := by rw [hl]; exact I.leaf_lt hp
      rw [List.getElem?_eq_getElem hlt]
      simp [hlt])).length_eq
    simpa using this
  have h1 : (maskSelect S.T.leavesIdx S.T.weights).length = S.T.leaves.length := by
    haveI : Inhabited (XF K) := ⟨XF.nan⟩
    exact len _ I.lenW
  have h2 : (maskSelect S.T.leavesIdx S.T.centers).length = S.T.leaves.length := by
    haveI : Inhabited (Pt K d) := ⟨fun _ => 0⟩
    apply len
    rw [I.centers]; simp
  have h3 : (maskSelect S.T.leavesIdx S.T.radii).length = S.T.leaves.length := by
    haveI : Inhabited K := ⟨0⟩
    apply len
    rw [I.radii]; simp
  have hs : setWeights ((maskSelect S.T.leavesIdx S.T.centers).zip (maskSelect S.T.leavesIdx S.T.radii)).length
      (maskSelect S.T.leavesIdx S.T.weights) = .ok (normWeights (cleanWeights (maskSelect S.T.leavesIdx S.T.weights))) := by
    unfold setWeights
    rw [if_pos]
    rw [List.length_zip, h1, h2, h3, min_self]
  have hsame := selfNormalize_same I
  have hu : S.updateModel = .ok { S with
      T := S.T.selfNormalize
      model := ((maskSelect S.T.leavesIdx S.T.centers).zip (maskSelect S.T.leavesIdx S.T.radii),
        normWeights (cleanWeights (maskSelect S.T.leavesIdx S.T.weights))) } := by
    unfold updateModel
    simp only [hs, Except.map]
  refine ⟨_, hu, ⟨⟨e, hr.same hsame⟩, ?_⟩, rfl, rfl, rfl, rfl⟩
  · intro p hp
    simp only at hp ⊢
    rw [hsame.leaves] at hp
    exact (r.hist p hp).selfNormalize I

theorem loop_spec {target : Pt K d → XF K} {c : Pt K d} {R : K} (hR : 0 < R) (cfg : TPConfig K) {t : K}
    (ht : cfg.essTarget = some t) (nS : ℕ) : ∀ (its : List (TPIter K d)) (late : Bool) (S : TPSampler K d),
    (∀ it ∈ its, it.Valid) → Ready target c R S →
    ∃ S' b, loop cfg target nS late its S = .ok (S', b) ∧ Ready target c R S'
  | [], late, S, hv, r => by
    obtain ⟨out, ho⟩ := getSamples_ok (target := target) t r.hist
    unfold loop
    simp only [ht, ho, bind, Except.bind, pure, Except.pure]
    exact ⟨_, _, rfl, r⟩
  | it :: its, late, S, hv, r => by
    obtain ⟨out, ho⟩ := getSamples_ok (target := target) t r.hist
    obtain ⟨S1, h1, r1, _⟩ := iterate_spec hR cfg (hv it (by simp)) r
    unfold loop
    simp only [ht, ho, bind, Except.bind, pure, Except.pure]
    split_ifs
    · rw [h1]
      exact loop_spec hR cfg ht nS its it.late S1 (fun i hi => hv i (by simp [hi])) r1
    · exact ⟨_, _, rfl, r⟩

/-- A sampler whose root has not been sampled yet. -/
structure Blank (c : Pt K d) (R : K) (S : TPSampler K d) : Prop where
  reached : Reached c R S.T 0
  root : ∃ n : TPNode K d, S.T.nodes[0]? = some n ∧ n.coordsHist = none ∧ n.weightHist = none ∧ n.histDeleted = false

theorem initRoot_spec {target : Pt K d → XF K} {c : Pt K d} {R : K} (hR : 0 < R) {S : TPSampler K d} {u : Pt K d}
    (hu : ∀ i, 0 ≤ u i ∧ u i < 1) (h : Blank c R S ∨ Ready target c R S) :
    ∃ S', initRoot target u S = .ok S' ∧ Ready target c R S' := by
  rcases h with h | h
  · obtain ⟨root, hroot, h1, h2, h3⟩ := h.root
    have r := h.reached
    obtain ⟨root', hr', _, hrad, _⟩ := r.root
    rw [hroot] at hr'
    obtain rfl : root = root' := by simpa using hr'
    obtain ⟨T1, T2, g1, g2, g3, g4, g5⟩ := sampleWeigh (target := target) r.wf hroot (by rw [hrad]; exact hR)
      (Or.inl ⟨root, hroot, h1, h2⟩) u hu
    have r2 := r.same g3
    have ready : Ready target c R { S with T := T2, numQ := S.numQ + 1 } := by
      refine ⟨⟨0, r2⟩, ?_⟩
      intro p hp
      have hp0 : p = 0 := by
        have := r2.wf.leaf_lt hp
        have h0 := r2.nNodes
        omega
      rw [hp0]; exact g4
    obtain ⟨S', k1, k2, _⟩ := updateModel_spec ready
    refine ⟨S', ?_, k2⟩
    unfold initRoot
    simp [hroot, h2, h3, g1, g2, bind, Except.bind, k1]
  · obtain ⟨e, r⟩ := h.reached
    obtain ⟨root, hroot, _⟩ := r.root
    unfold initRoot
    simp only [hroot]
    split_ifs with hc
    · exfalso
      rcases r.wf.leafOf 0 root hroot with hl | ⟨j, _, hj⟩
      · have := r.wf.del 0 root hroot hl
        rw [hc.1] at this
        cases this
      · obtain ⟨n, ch, wh, g1, g2, g3, _⟩ := h.hist 0 (List.mem_iff_getElem?.2 ⟨j, hj⟩)
        rw [hroot] at g1
        obtain rfl : root = n := by simpa using g1
        rw [hc.2] at g3
        cases g3
    · exact ⟨S, rfl, h⟩

/-- A call of `importance_sample` never raises; the invariant holds after it. -/
theorem importanceSampleSimple_spec {target : Pt K d → XF K} {c : Pt K d} {R : K} (hR : 0 < R) (cfg : TPConfig K) {t : K}
    (ht : cfg.essTarget = some t) (nS : ℕ) {u0 : Pt K d} (hu : ∀ i, 0 ≤ u0 i ∧ u0 i < 1) {its : List (TPIter K d)}
    (hv : ∀ it ∈ its, it.Valid) {S : TPSampler K d} (h : Blank c R S ∨ Ready target c R S) :
    ∃ S' out, importanceSampleSimple cfg target nS u0 its S = .ok (S', out) ∧ Ready target c R S' ∧
      ∀ o, out = some o → S'.T.getSamples cfg.essTarget = .ok o := by
  obtain ⟨S0, h0, r0⟩ := initRoot_spec hR hu h
  obtain ⟨S1, b, h1, r1⟩ := loop_spec hR cfg ht nS its false S0 hv r0
  unfold importanceSampleSimple
  simp only [h0, h1, bind, Except.bind, pure, Except.pure]
  cases b with
  | false => exact ⟨S1, none, by simp, r1, by simp⟩
  | true =>
    obtain ⟨S2, h2, r2, _⟩ := updateModel_spec r1
    obtain ⟨out, ho⟩ := getSamples_ok (target := target) t r2.hist
    refine ⟨S2, some out, by simp [h2, ht, ho], r2, ?_⟩
    rintro o ho'
    simp only [Option.some.injEq] at ho'
    rw [ht, ho, ho']

end TPSampler
end Verif
