import Verif.Proof.TPMixture

set_option linter.unusedSectionVars false
set_option autoImplicit false

namespace Verif

variable {K : Type*} [Field K] [LinearOrder K] [IsStrictOrderedRing K] {d : ℕ}

namespace TPTree

/-- The node `p` has samples. -/
def Held (T : TPTree K d) (p : ℕ) : Prop :=
  ∃ (n : TPNode K d) (ch : List (Pt K d)) (wh : List (XF K)), T.nodes[p]? = some n ∧ n.coordsHist = some ch ∧
    n.weightHist = some wh ∧ ch.length = wh.length ∧ wh ≠ []

/-- Sampling a node at `x` and weighing it with importance `q`. -/
theorem sampleWeigh' {target : Pt K d → XF K} {T : TPTree K d} (I : WF T) {p : ℕ} {n : TPNode K d}
    (hn : T.nodes[p]? = some n) (x : Pt K d) :
    ∃ T1, T.sampleNode p x = .ok T1 ∧ Same T T1 ∧ T1.weights = T.weights ∧ T1.nodes[p]? = some (n.sample x) ∧
      T1.samples[p]? = some x ∧ (∀ q, q ≠ p → T1.nodes[q]? = T.nodes[q]? ∧ T1.samples[q]? = T.samples[q]?) ∧
      ∀ v : XF K, ∃ T2, T1.weighNode p target (fun _ => v) = .ok T2 ∧ Same T T2 ∧
        T2.nodes[p]? = some ((n.sample x).weigh target fun _ => v) ∧ T2.samples[p]? = some x ∧
        T2.weights[p]? = some (target x / v) ∧
        ∀ q, q ≠ p → T2.nodes[q]? = T.nodes[q]? ∧ T2.samples[q]? = T.samples[q]? ∧ T2.weights[q]? = T.weights[q]? := by
  have hpN : p < T.nodes.length := (List.getElem?_eq_some_iff.1 hn).1
  have hni := I.idx p n hn
  have hlen1 := I.lenS
  have hlen2 := I.lenW
  have h1 : T.sampleNode p x = .ok { T with nodes := T.nodes.modify p fun n => n.sample x
                                            samples := T.samples.set p x } := by
    unfold sampleNode
    rw [hn]
    simp only [hni]
    rw [if_pos (by omega)]
  have hn1 : (T.nodes.modify p fun n => n.sample x)[p]? = some (n.sample x) := by
    rw [List.getElem?_modify_eq, hn]; rfl
  refine ⟨_, h1, sampleNode_same h1, rfl, hn1, List.getElem?_set_self (by omega), ?_, ?_⟩
  · intro q hq
    have hq' : p ≠ q := fun h => hq h.symm
    simp only
    rw [getElem?_modify_ne' _ _ hq', List.getElem?_set_ne hq']
    exact ⟨rfl, rfl⟩
  intro v
  have h2 : TPTree.weighNode { T with nodes := T.nodes.modify p fun n => n.sample x
                                      samples := T.samples.set p x } p target (fun _ => v)
      = .ok { T with nodes := (T.nodes.modify p fun n => n.sample x).modify p fun m => m.weigh target fun _ => v
                     samples := T.samples.set p x
                     weights := T.weights.set p ((n.sample x).weigh target fun _ => v).weight } := by
    unfold weighNode
    simp only [hn1]
    have : (n.sample x).nodeIdx = p := hni
    rw [this, if_pos (by omega)]
  refine ⟨_, h2, (sampleNode_same h1).trans (weighNode_same h2), ?_, List.getElem?_set_self (by omega), ?_, ?_⟩
  · simp only
    rw [List.getElem?_modify_eq, hn1]
    rfl
  · simp only
    rw [List.getElem?_set_self (by omega)]
    rfl
  · intro q hq
    have hq' : p ≠ q := fun h => hq h.symm
    simp only
    rw [getElem?_modify_ne' _ _ hq', getElem?_modify_ne' _ _ hq', List.getElem?_set_ne hq', List.getElem?_set_ne hq']
    exact ⟨rfl, rfl, rfl⟩

/-- The density reported by the tree at a point, for any weights: 0, or the weight of a leaf over the volume of its
cube. -/
theorem prob1_cases {T : TPTree K d} (I : WF T) {c : Pt K d} {R : K} (t : Tiles c R T.leafBoxes) (x : Pt K d) :
    (T.prob1 x = .ok (XF.fin 0) ∧ ∀ p ∈ T.leaves, ¬ T.inOpen p x) ∨
    ∃ p ∈ T.leaves, T.inOpen p x ∧ ∃ w, T.weights[p]? = some w ∧ T.prob1 x = .ok (w / XF.fin ((2 * (T.box p).2) ^ d)) := by
  unfold prob1
  simp only
  set rows := (T.leavesIdx.zip (T.centers.zip T.radii)).zip T.weights with hrows
  set P : (Bool × Pt K d × K) × XF K → Bool :=
    fun row => match row with | ((b, c, r), _) => b && decide (∀ i, c i - r < x i ∧ x i < c i + r) with hP
  have Piff : ∀ i row, rows[i]? = some row → (P row = true ↔ i ∈ T.leaves ∧ T.inOpen i x) := by
    intro i row hrow
    obtain ⟨h1, h2, h3⟩ := rows_getElem? I i row hrow
    obtain ⟨⟨b, c', r'⟩, w'⟩ := row
    simp only at h1 h2
    simp only [hP, Bool.and_eq_true, decide_eq_true_eq, h1, inOpen, ← h2]
  have hpair : rows.Pairwise fun a b => ¬ (P a = true ∧ P b = true) := by
    rw [List.pairwise_iff_getElem]
    intro i j hi hj hij ⟨h1, h2⟩
    rw [Piff i _ (List.getElem?_eq_getElem hi)] at h1
    rw [Piff j _ (List.getElem?_eq_getElem hj)] at h2
    have := t.unique h1.1 h2.1 h1.2 h2.2
    omega
  cases hf : rows.filter P with
  | nil =>
    left
    refine ⟨rfl, ?_⟩
    intro p hp hx
    obtain ⟨row, hrow⟩ := rows_exists I p (I.leaf_lt hp)
    have : row ∈ rows.filter P :=
      List.mem_filter.2 ⟨List.mem_iff_getElem?.2 ⟨p, hrow⟩, (Piff p row hrow).2 ⟨hp, hx⟩⟩
    rw [hf] at this
    simp at this
  | cons a l =>
    cases l with
    | nil =>
      right
      obtain ⟨⟨b, c', r'⟩, w'⟩ := a
      have ha : ((b, c', r'), w') ∈ rows.filter P := by rw [hf]; simp
      obtain ⟨ham, haP⟩ := List.mem_filter.1 ha
      obtain ⟨i, hi⟩ := List.mem_iff_getElem?.1 ham
      obtain ⟨hl, hx⟩ := (Piff i _ hi).1 haP
      obtain ⟨_, h2, h3⟩ := rows_getElem? I i _ hi
      simp only at h2 h3
      refine ⟨i, hl, hx, w', h3, ?_⟩
      have hr' : r' = (T.box i).2 := by rw [← h2]
      simp only
      rw [hr']
    | cons b l =>
      exfalso
      have h1 := hpair.filter P
      rw [hf, List.pairwise_cons] at h1
      have ha : a ∈ rows.filter P := by rw [hf]; simp
      have hb : b ∈ rows.filter P := by rw [hf]; simp
      exact h1.1 b (by simp) ⟨(List.mem_filter.1 ha).2, (List.mem_filter.1 hb).2⟩

theorem Reached.box_pos {c : Pt K d} {R : K} (hR : 0 < R) {T : TPTree K d} {e : ℕ} (r : Reached c R T e) {p : ℕ}
    (hp : p ∈ T.leaves) : 0 < (T.box p).2 := by
  obtain ⟨k, hk⟩ := (r.tiles hR.le).radii (T.box p) (List.mem_map.2 ⟨p, hp, rfl⟩)
  rw [hk]; positivity

/-- One leaf taking over its cached sample and weight. -/
theorem refreshLeaf_held {T : TPTree K d} (I : WF T) {p : ℕ} (h : Held T p) :
    ∃ T', T.refreshLeaf p = .ok T' ∧ Same T T' ∧ T'.samples = T.samples ∧ T'.weights = T.weights ∧ Held T' p ∧
      ∀ q, q ≠ p → T'.nodes[q]? = T.nodes[q]? := by
  obtain ⟨n, ch, wh, h1, h2, h3, h4, h5⟩ := h
  have hpN : p < T.nodes.length := (List.getElem?_eq_some_iff.1 h1).1
  obtain ⟨x, hx⟩ : ∃ x, T.samples[p]? = some x := ⟨_, List.getElem?_eq_getElem (by rw [I.lenS]; exact hpN)⟩
  obtain ⟨w, hw⟩ : ∃ w, T.weights[p]? = some w := ⟨_, List.getElem?_eq_getElem (by rw [I.lenW]; exact hpN)⟩
  have hch : ch ≠ [] := by
    intro h0
    rw [h0] at h4
    exact h5 (List.length_eq_zero_iff.1 h4.symm)
  have hr : ∃ m : TPNode K d, m.coordsHist = some (ch.dropLast ++ [x]) ∧ m.weightHist = some (wh.dropLast ++ [w]) ∧
      T.refreshLeaf p = .ok ⟨T.nodes.set p m, T.leaves, T.centers, T.radii, T.samples, T.weights, T.leavesIdx⟩ := by
    unfold refreshLeaf
    simp only [h1, I.idx p n h1, hw, hx, h2, h3, Option.bind_some, setLast, h5, hch, if_false]
    exact ⟨_, rfl, rfl, rfl⟩
  obtain ⟨m, hm1, hm2, hr⟩ := hr
  refine ⟨_, hr, refreshLeaf_same hr, rfl, rfl, ?_, ?_⟩
  · refine ⟨_, _, _, List.getElem?_set_self hpN, hm1, hm2, ?_, by simp⟩
    simp [h4]
  · intro q hq
    exact List.getElem?_set_ne (fun h => hq h.symm)

theorem foldlM_refresh_held : ∀ (l : List ℕ) (T : TPTree K d), WF T → (∀ p ∈ l, Held T p) →
    ∃ T', l.foldlM refreshLeaf T = .ok T' ∧ Same T T' ∧ T'.samples = T.samples ∧ T'.weights = T.weights ∧
      ∀ p, Held T p → Held T' p
  | [], T, I, h => ⟨T, rfl, Same.refl _, rfl, rfl, fun _ h => h⟩
  | p :: l, T, I, h => by
    obtain ⟨T1, h1, h2, h3, h4, h5, h6⟩ := refreshLeaf_held I (h p (by simp))
    have keep : ∀ q, Held T q → Held T1 q := by
      intro q hq
      by_cases hqp : q = p
      · rw [hqp]; exact h5
      · obtain ⟨n, ch, wh, g1, g⟩ := hq
        exact ⟨n, ch, wh, by rw [h6 q hqp, g1], g⟩
    obtain ⟨T', g1, g2, g3, g4, g5⟩ := foldlM_refresh_held l T1 (h2.inv I) (fun q hq => keep q (h q (by simp [hq])))
    refine ⟨T', ?_, h2.trans g2, g3.trans h3, g4.trans h4, fun q hq => g5 q (keep q hq)⟩
    rw [List.foldlM_cons, h1]
    exact g1

/-- Leaf resampling of a tree whose leaves all have samples. -/
theorem resample_held {target : Pt K d → XF K} {T : TPTree K d} (I : WF T) (u : ℕ → Pt K d)
    (h : ∀ p ∈ T.leaves, Held T p) :
    ∃ T', T.resample target u = .ok T' ∧ Same T T' ∧ (∀ p ∈ T'.leaves, Held T' p) ∧
      T'.samples = (T.resampleArrays target u).samples ∧ T'.weights = ((T.resampleArrays target u).selfNormalize).weights := by
  have s1 := resampleArrays_same I target u
  have I1 := s1.inv I
  have s2 := selfNormalize_same I1
  have I2 := s2.inv I1
  have hn : (T.resampleArrays target u).selfNormalize.nodes = T.nodes := by
    unfold selfNormalize
    simp only
    split_ifs <;> rfl
  have hs : (T.resampleArrays target u).selfNormalize.samples = (T.resampleArrays target u).samples := by
    unfold selfNormalize
    simp only
    split_ifs <;> rfl
  have hl : (T.resampleArrays target u).selfNormalize.leaves = T.leaves := by rw [s2.leaves, s1.leaves]
  have hh : ∀ p, Held T p → Held (T.resampleArrays target u).selfNormalize p := by
    rintro p ⟨n, ch, wh, g1, g⟩
    exact ⟨n, ch, wh, by rw [hn, g1], g⟩
  obtain ⟨T', g1, g2, g3, g4, g5⟩ := foldlM_refresh_held T.leaves _ I2 (fun p hp => hh p (h p hp))
  refine ⟨T', ?_, (s1.trans s2).trans g2, ?_, by rw [g3, hs], g4⟩
  · unfold resample
    simp only
    rw [hl]
    exact g1
  · intro p hp
    rw [g2.leaves, hl] at hp
    exact g5 p (hh p (h p hp))

/-- The entries written by leaf resampling. -/
theorem resampleArrays_leaf {target : Pt K d → XF K} {T : TPTree K d} (I : WF T) (u : ℕ → Pt K d) {p : ℕ}
    (hp : p ∈ T.leaves) :
    (T.resampleArrays target u).samples[p]? = some (reSample (u p) (T.box p).1 (T.box p).2) ∧
    (T.resampleArrays target u).weights[p]? =
      some (target (reSample (u p) (T.box p).1 (T.box p).2) / (XF.fin 1 / XF.fin ((2 * (T.box p).2) ^ d))) := by
  obtain ⟨n, hn, hl⟩ := I.leaf_node hp
  have hpN := I.leaf_lt hp
  have hm := (I.mask_iff p).2 hp
  have hb : T.box p = (n.center, n.radius) := by simp [box, hn]
  obtain ⟨x, hx⟩ : ∃ x, T.samples[p]? = some x := ⟨_, List.getElem?_eq_getElem (by rw [I.lenS]; exact hpN)⟩
  obtain ⟨w, hw⟩ : ∃ w, T.weights[p]? = some w := ⟨_, List.getElem?_eq_getElem (by rw [I.lenW]; exact hpN)⟩
  have hcr : (T.centers.zip T.radii)[p]? = some (n.center, n.radius) := by
    rw [List.getElem?_zip_eq_some, I.centers, I.radii, List.getElem?_map, List.getElem?_map, hn]
    exact ⟨rfl, rfl⟩
  have hz : ((T.centers.zip T.radii).zipIdx.map fun ((c, r), i) => (reSample (u i) c r, r))[p]?
      = some (reSample (u p) n.center n.radius, n.radius) := by
    rw [List.getElem?_map, List.getElem?_zipIdx, hcr]
    simp
  rw [hb]
  have zip3 : ∀ {α β γ : Type _} {l : List α} {m : List β} {k : List γ} {a : α} {b : β} {g : γ}, l[p]? = some a →
      m[p]? = some b → k[p]? = some g → ((l.zip m).zip k)[p]? = some ((a, b), g) := by
    intro α β γ l m k a b g h1 h2 h3
    rw [List.getElem?_zip_eq_some, List.getElem?_zip_eq_some]
    exact ⟨⟨h1, h2⟩, h3⟩
  constructor
  · simp only [resampleArrays, List.getElem?_map]
    rw [zip3 hx hz hm]; rfl
  · simp only [resampleArrays, List.getElem?_map]
    rw [zip3 hw hz hm]; rfl

end TPTree

open TPTree

/-- Sampling from a mixture with a single component. -/
theorem boxesSample_single (c : Pt K d) (r w : K) (bern : ℕ → ℕ → K → Bool) (u : ℕ → Pt K d) (n : ℕ) :
    boxesSample ([(c, r)], [XF.fin w]) bern u n
      = .ok ((List.range n).map fun k => Uniform.sample1 ⟨c, fun _ => r, (r * 2) ^ d⟩ (u k)) := by
  have key : ∀ {α β : Type _} (f : α → Except PyErr β) (g : α → β) (l : List α), (∀ a ∈ l, f a = .ok (g a)) →
      l.mapM f = .ok (l.map g) := by
    intro α β f g l h
    induction l with
    | nil => rfl
    | cons a l ih =>
      rw [List.mapM_cons, h a (by simp), ih (fun b hb => h b (by simp [hb]))]
      rfl
  unfold boxesSample mixtureSample
  simp only [finites, Option.map_some]
  apply key
  intro k _
  simp [multinomial1, multinomialGo, argmaxNat]

namespace TPSampler

/-- The mixture model consists of a single box with a finite weight. -/
def SingleBox (S : TPSampler K d) (c : Pt K d) (r : K) : Prop := ∃ w : K, S.model = ([(c, r)], [XF.fin w])

theorem visitMix_spec {target : Pt K d → XF K} {it : TPMixIter K d} {c0 : Pt K d} {r0 : K} {c : Pt K d} {R : K}
    (hR : 0 < R) {S : TPSampler K d} (hm : S.SingleBox c0 r0) {e : ℕ} (r : Reached c R S.T e) {p : ℕ}
    (hp : p ∈ S.T.leaves) (hh : Fresh S.T p ∨ Held S.T p) :
    ∃ (S' : TPSampler K d) (x : Pt K d) (q : XF K), visitMix target it S p = .ok S' ∧ Same S.T S'.T ∧
      S'.model = S.model ∧ x = Uniform.sample1 ⟨c0, fun _ => r0, (r0 * 2) ^ d⟩ (it.draw p) ∧
      (q = XF.fin 0 ∨ ∃ p' ∈ S.T.leaves, ∃ w, S.T.weights[p']? = some w ∧ q = w / XF.fin ((2 * (S.T.box p').2) ^ d)) ∧
      S.T.prob1 x = .ok q ∧
      S'.T.samples[p]? = some x ∧ S'.T.weights[p]? = some (target x / q) ∧ Held S'.T p ∧
      (∀ n, S.T.nodes[p]? = some n → S'.T.nodes[p]? = some ((n.sample x).weigh target fun _ => q)) ∧
      (∀ q, q ≠ p → S'.T.nodes[q]? = S.T.nodes[q]? ∧ S'.T.samples[q]? = S.T.samples[q]? ∧
        S'.T.weights[q]? = S.T.weights[q]?) := by
  obtain ⟨w0, hw0⟩ := hm
  obtain ⟨n, hn, _⟩ := r.wf.leaf_node hp
  set x := Uniform.sample1 ⟨c0, fun _ => r0, (r0 * 2) ^ d⟩ (it.draw p) with hx
  have hbs : boxesSample S.model (fun _ => it.comp p) (fun _ => it.draw p) 1 = .ok [x] := by
    rw [hw0, boxesSample_single]; simp [hx]
  obtain ⟨T1, h1, s1, hw1, hn1, hs1, ho1, hnext⟩ := sampleWeigh' (target := target) r.wf hn x
  have r1 := r.same s1
  have hp1 : ∃ q, T1.prob1 x = .ok q ∧ (q = XF.fin 0 ∨ ∃ p' ∈ S.T.leaves, ∃ w, S.T.weights[p']? = some w ∧
      q = w / XF.fin ((2 * (S.T.box p').2) ^ d)) := by
    rcases prob1_cases r1.wf (r1.tiles hR.le) x with ⟨h, _⟩ | ⟨p', hp', _, w, hw, h⟩
    · exact ⟨_, h, Or.inl rfl⟩
    · refine ⟨_, h, Or.inr ⟨p', by rw [s1.leaves] at hp'; exact hp', w, by rw [← hw1]; exact hw, ?_⟩⟩
      rw [s1.box]
  obtain ⟨q, hq, hq'⟩ := hp1
  have hpS : S.T.prob1 x = .ok q := by
    rw [← hq]
    unfold prob1
    rw [hw1, s1.leavesIdx, s1.centers, s1.radii]
  obtain ⟨T2, h2, s2, hn2, hs2, hw2, ho2⟩ := hnext q
  refine ⟨{ S with T := T2, numQ := S.numQ + 1, numPi := S.numPi + 1, numQEvals := S.numQEvals + 1 }, x, q, ?_, s2, rfl,
    rfl, hq', hpS, hs2, hw2, ?_, ?_, ho2⟩
  · unfold visitMix
    simp only [hbs, bind, Except.bind, List.headD_cons, h1, hq, h2, pure, Except.pure]
  · rcases hh with ⟨m, hm, hc, hwh⟩ | ⟨m, ch, wh, hm, hc, hwh, hl, hne⟩
    · rw [hn] at hm
      obtain rfl : n = m := by simpa using hm
      exact ⟨_, _, _, hn2, rfl, rfl, by simp [TPNode.sample, hc, hwh], by simp⟩
    · rw [hn] at hm
      obtain rfl : n = m := by simpa using hm
      exact ⟨_, _, _, hn2, rfl, rfl, by simp [TPNode.sample, hc, hwh, hl], by simp⟩
  · intro m hm
    rw [hn] at hm
    obtain rfl : n = m := by simpa using hm
    exact hn2

/-- All the nodes of a list are visited; `P` is any property of weights that visiting preserves. -/
theorem visitsMix_spec {target : Pt K d → XF K} {it : TPMixIter K d} {c0 : Pt K d} {r0 : K} {c : Pt K d} {R : K}
    (hR : 0 < R) (P : XF K → Prop) (hP0 : ∀ x, P (target x / XF.fin 0))
    (hP : ∀ w x (b : K), P w → 0 < b → P (target x / (w / XF.fin b))) :
    ∀ (ps : List ℕ) (S : TPSampler K d) (e : ℕ), S.SingleBox c0 r0 → Reached c R S.T e → (∀ p ∈ ps, p ∈ S.T.leaves) →
    (∀ p ∈ S.T.leaves, Held S.T p ∨ (p ∈ ps ∧ Fresh S.T p)) →
    (∀ p ∈ S.T.leaves, ∃ w, S.T.weights[p]? = some w ∧ P w) →
    ∃ S', ps.foldlM (visitMix target it) S = .ok S' ∧ Same S.T S'.T ∧ S'.model = S.model ∧
      (∀ p ∈ S'.T.leaves, Held S'.T p) ∧ (∀ p ∈ S'.T.leaves, ∃ w, S'.T.weights[p]? = some w ∧ P w) ∧
      (∀ p, p ∉ ps → S'.T.weights[p]? = S.T.weights[p]?)
  | [], S, e, hm, r, hl, hh, hw =>
    ⟨S, rfl, Same.refl _, rfl, fun p hp => by simpa using hh p hp, hw, fun _ _ => rfl⟩
  | p :: ps, S, e, hm, r, hl, hh, hw => by
    obtain ⟨S1, x, q, h1, s1, hmod, _, hq, _, hs1, hw1, hh1, _, ho⟩ :=
      visitMix_spec (target := target) (it := it) hR hm r (hl p (by simp))
      ((hh p (hl p (by simp))).symm.imp (fun h => h.2) id)
    have hPp : P (target x / q) := by
      rcases hq with rfl | ⟨p', hp', w, hw', rfl⟩
      · exact hP0 x
      · obtain ⟨w2, hw2, hPw⟩ := hw p' hp'
        rw [hw'] at hw2
        obtain rfl : w = w2 := by simpa using hw2
        have := r.box_pos hR hp'
        exact hP w x _ hPw (by positivity)
    obtain ⟨S', g1, g2, g3, g4, g5, g6⟩ := visitsMix_spec hR P hP0 hP ps S1 e
      (by obtain ⟨w, hw'⟩ := hm; exact ⟨w, hmod.trans hw'⟩) (r.same s1)
      (fun q hq => by rw [s1.leaves]; exact hl q (by simp [hq])) (by
        intro q hq
        rw [s1.leaves] at hq
        by_cases hqp : q = p
        · subst hqp; exact Or.inl hh1
        · obtain ⟨a, b, c⟩ := ho q hqp
          rcases hh q hq with ⟨n, ch, wh, g1, g⟩ | ⟨hm, n, hn, hf⟩
          · exact Or.inl ⟨n, ch, wh, by rw [a, g1], g⟩
          · right
            refine ⟨?_, n, by rw [a, hn], hf⟩
            rcases List.mem_cons.1 hm with h | h
            · exact absurd h hqp
            · exact h) (by
        intro q hq
        rw [s1.leaves] at hq
        by_cases hqp : q = p
        · subst hqp; exact ⟨_, hw1, hPp⟩
        · obtain ⟨w, hw, hPw⟩ := hw q hq
          exact ⟨w, by rw [(ho q hqp).2.2, hw], hPw⟩)
    refine ⟨S', by rw [List.foldlM_cons, h1]; exact g1, s1.trans g2, g3.trans hmod, g4, g5, ?_⟩
    intro q hq
    rw [g6 q (fun h => hq (by simp [h])), (ho q (fun h => hq (by simp [h]))).2.2]

end TPSampler
end Verif
