import Verif.Spec.TPLost
import Verif.Proof.TPLost
import Verif.Props.TPConsistent
import Verif.Props.TPWeights

/-!
# Property C118: the tree pyramid sampler and targets that vanish somewhere
-/

set_option linter.unusedSectionVars false
set_option autoImplicit false

namespace Verif

open MeasureTheory TPTree

/-- **C118, partial**: first call of a new sampler on a target that is continuous and non-negative, with positive
integral: the weighted mean is as close as wanted to the expectation when all leaves the call ends with are small
enough. Missing: that the leaves become small when more samples are asked for, which is false (`C118_refuted`) unless the
target is positive (C117). -/
theorem C118_partial {d : ℕ} {dmin dmax : Pt ℝ d} (hlt : ∀ i, dmin i < dmax i) {R : ℝ}
    (hR : IsGreatest (Set.range fun i => (dmax i - dmin i) / 2) R) (cfg : TPConfig ℝ) {e : ℝ}
    (he : cfg.essTarget = some e) (h1e : 1 < e) {S0 : TPSampler ℝ d} (h0 : TPSampler.new dmin dmax = .ok S0)
    (t f : Pt ℝ d → ℝ) (ht : ContinuousOn t (closedCube (fun i => (dmin i + dmax i) / 2) R)) (hnn : ∀ x, 0 ≤ t x)
    (hpos : 0 < ∫ x in closedCube (fun i => (dmin i + dmax i) / 2) R, t x)
    (hf : ContinuousOn f (closedCube (fun i => (dmin i + dmax i) / 2) R)) {ε : ℝ} (hε : 0 < ε) :
    ∃ η > 0, ∀ (call : TPCall ℝ d) (S' : TPSampler ℝ d) xs ws, call.Open →
      TPSampler.importanceSampleSimple cfg (fun x => XF.fin (t x)) call.n call.u0 call.its S0
          = .ok (S', some (xs, ws)) → (∀ n ∈ S'.T.nodes, n.isLeaf = true → n.radius ≤ η) →
      ∃ v, meanOver f (xs, ws) = XF.fin v ∧
        |v - (∫ x in closedCube (fun i => (dmin i + dmax i) / 2) R, f x * t x) /
          ∫ x in closedCube (fun i => (dmin i + dmax i) / 2) R, t x| < ε := by
  set c : Pt ℝ d := fun i => (dmin i + dmax i) / 2 with hc
  obtain ⟨hR0, hblank, _⟩ := TPSampler.new_root hlt h0 hR
  obtain ⟨δ, hδ, hdiv⟩ := div_near (a := ∫ x in closedCube c R, f x * t x) hpos.ne' hε
  obtain ⟨η1, hη1, hr1⟩ := riemann hR0.le (hf.mul ht) hδ
  obtain ⟨η2, hη2, hr2⟩ := riemann hR0.le ht hδ
  refine ⟨min η1 η2, lt_min hη1 hη2, ?_⟩
  intro call S' xs ws hopen hi hrad
  obtain ⟨T, e', s, r, hs, hcache, hT, hg⟩ := (TPSampler.call_fair hnn hR0 hopen (Or.inl hblank) hi).2 xs ws rfl
  rw [he] at hg
  unfold getSamples at hg
  simp only [h1e, if_true, Except.ok.injEq, Prod.mk.injEq] at hg
  obtain ⟨pt, hpt⟩ := Cached.normalize_full hR0 hs hnn r hcache
  have same := selfNormalize_same r.wf
  set Q := (T.leaves.map fun p => t (pt p) * (2 * (T.box p).2) ^ d).sum with hQ
  have I : WF T.selfNormalize := same.inv r.wf
  have hlv : T.selfNormalize.leaves = T.leaves := same.leaves
  have hmean := meanOver_leaves f I pt (fun p => t (pt p) * (2 * (T.box p).2) ^ d / Q)
    (fun p hp => (hpt p (by rw [← hlv]; exact hp)).2.1) (fun p hp => (hpt p (by rw [← hlv]; exact hp)).2.2)
  have hsmall : ∀ p ∈ T.leaves, (T.box p).2 ≤ min η1 η2 := by
    intro p hp
    rw [← hlv] at hp
    obtain ⟨n, hn, hl⟩ := I.leaf_node hp
    rw [← same.box p, box_node hn]
    exact hrad n (by rw [hT]; exact List.mem_iff_getElem?.2 ⟨p, hn⟩) hl
  have htile := r.tiles hR0.le
  unfold leafBoxes at htile
  refine ⟨(T.leaves.map fun p => f (pt p) * t (pt p) * (2 * (T.box p).2) ^ d).sum / Q, ?_, ?_⟩
  · rw [← hg.1, ← hg.2, hmean, hlv]
    congr 1
    rw [div_eq_mul_inv, ← List.sum_map_mul_right]
    congr 1
    apply List.map_congr_left
    intro p _
    ring
  · apply hdiv
    · exact hr1 T.leaves T.box pt htile (fun p hp => (hsmall p hp).trans (min_le_left _ _))
        (fun p hp => mem_closedCube.2 (hpt p hp).1)
    · exact hr2 T.leaves T.box pt htile (fun p hp => (hsmall p hp).trans (min_le_right _ _))
        (fun p hp => mem_closedCube.2 (hpt p hp).1)

/-! ### The run that never returns -/

theorem gapTarget_pos {x : Pt ℝ 1} (h : x 0 < 1 / 2) : 0 < gapTarget x := by
  unfold gapTarget
  have h1 : 1 / 2 - x 0 ≤ max 0 (1 / 2 - x 0) := le_max_right _ _
  have h2 : 0 ≤ max 0 (x 0 - 3 / 4) := le_max_left _ _
  linarith

theorem gapTarget_zero {x : Pt ℝ 1} (h : 1 / 2 ≤ x 0) (h' : x 0 ≤ 3 / 4) : gapTarget x = 0 := by
  unfold gapTarget
  rw [max_eq_left (by linarith), max_eq_left (by linarith), add_zero]

theorem selfNormalize_points {d : ℕ} (T : TPTree ℝ d) : T.selfNormalize.samples = T.samples := by
  unfold TPTree.selfNormalize
  simp only
  split_ifs <;> rfl

namespace TPSampler

/-- The box of the node is in the left half. -/
def LeftBox (T : TPTree ℝ 1) (p : ℕ) : Prop := ∃ n, T.nodes[p]? = some n ∧ n.center 0 + n.radius ≤ 1 / 2

/-- State in which the right half has a leaf of value 0. -/
structure Stuck (S : TPSampler ℝ 1) : Prop where
  ready : Ready (fun x => XF.fin (gapTarget x)) (fun _ => 1 / 2) (1 / 2) S
  size : 3 ≤ S.T.nodes.length
  null : 2 ∈ S.T.leaves ∧ NullLeaf S.T 2
  other : ∃ p ∈ S.T.leaves, p ≠ 2
  left : ∀ p ∈ S.T.leaves, p ≠ 2 → PosLeaf S.T p ∧ LeftBox S.T p

theorem Stuck.first {S : TPSampler ℝ 1} (g : Stuck S) : ∃ q ps, sortedLeaves S.T = q :: ps ∧ q ≠ 2 := by
  obtain ⟨p, hp, hp2⟩ := g.other
  have hperm := sortedLeaves_perm S.T
  have hval : ∀ p ∈ S.T.leaves, p ≠ 2 → ∃ v, S.T.valueAt p = XF.fin v ∧ 0 < v := by
    intro p hp h2
    obtain ⟨⟨n, _, _, _, v, hn, _, _, hv, hv0, _⟩, _⟩ := g.left p hp h2
    exact ⟨v, by simp [valueAt, hn, hv], hv0⟩
  have h2v : S.T.valueAt 2 = XF.fin 0 := by
    obtain ⟨n, _, hn, hv, _⟩ := g.null.2
    simp [valueAt, hn, hv]
  cases hs : sortedLeaves S.T with
  | nil =>
    rw [hs] at hperm
    have := hperm.mem_iff.2 hp
    simp at this
  | cons q ps =>
    refine ⟨q, ps, rfl, ?_⟩
    rintro rfl
    have hpw := sortedLeaves_pairwise S.T (by
      intro p hp
      by_cases h2 : p = 2
      · rw [h2, h2v]; simp
      · obtain ⟨v, hv, _⟩ := hval p hp h2
        rw [hv]; simp)
    rw [hs, List.pairwise_cons] at hpw
    have hmem : p ∈ ps := by
      have := hperm.mem_iff.2 hp
      rw [hs] at this
      exact (List.mem_cons.1 this).resolve_left hp2
    have := hpw.1 p hmem
    obtain ⟨v, hv, hv0⟩ := hval p hp hp2
    rw [h2v, hv] at this
    simp [XF.ltb] at this
    linarith

variable {cfg : TPConfig ℝ} {e : ℝ}

theorem Stuck.iterate (he : cfg.essTarget = some e) (h1e : 1 < e) (hm : cfg.nMin ≤ 1) (hpar : cfg.parallel ≤ 1)
    (hlr : cfg.leafResampling = false) {it : TPIter ℝ 1} (hit : it.Open) {S : TPSampler ℝ 1} (g : Stuck S) :
    ∃ S', TPSampler.iterate cfg (fun x => XF.fin (gapTarget x)) it S = .ok S' ∧ Stuck S' ∧
      S'.T.leaves.length = S.T.leaves.length + 1 := by
  obtain ⟨q, ps, hq, hq2⟩ := g.first
  have hqL : q ∈ S.T.leaves := (sortedLeaves_perm S.T).mem_iff.1 (by rw [hq]; simp)
  obtain ⟨hqp, nq, hnq, hbox⟩ := g.left q hqL hq2
  obtain ⟨S', n, hS', r', hn, hrad, _, hlv, hlen, hnodes, hold, hnew⟩ :=
    iterate_split he h1e hm hpar hlr (by norm_num) hit g.ready hq hqp
  rw [hn] at hnq
  obtain rfl := Option.some.inj hnq
  have hsz := g.size
  have hkid : ∀ k : ℕ, k < 2 → PosLeaf S'.T (S.T.nodes.length + k) ∧ LeftBox S'.T (S.T.nodes.length + k) := by
    intro k hk
    obtain ⟨m, x, b1, b2, b3, b4, b5, b6, b7, b8⟩ := hnew k hk
    have hk' : (k : ℝ) ≤ 1 := by exact_mod_cast Nat.lt_succ_iff.1 hk
    have hmb : m.center 0 + m.radius ≤ 1 / 2 := by rw [b3, b2]; nlinarith
    have hu := (hit.1 (S.T.nodes.length + k) 0).2
    have hm0 : 0 < m.radius := by rw [b2]; positivity
    have hx : x 0 < 1 / 2 := by rw [b4]; nlinarith
    have hp := gapTarget_pos hx
    exact ⟨⟨m, x, _, _, _, b1, b5, by positivity, b6, by positivity, b7, hx.le, b8, by positivity⟩, m, b1, hmb⟩
  refine ⟨S', hS', ⟨r', by omega, ?_, ?_, ?_⟩, hlen⟩
  · obtain ⟨o1, o2, o3⟩ := hold 2 g.null.1 (Ne.symm hq2)
    exact ⟨(hlv 2).2 (Or.inl ⟨g.null.1, Ne.symm hq2⟩), g.null.2.congr o1 o2 o3⟩
  · exact ⟨S.T.nodes.length, (hlv _).2 (Or.inr (Or.inl rfl)), by omega⟩
  · intro p hp hp2
    rcases (hlv p).1 hp with ⟨h1, h2⟩ | rfl | rfl
    · obtain ⟨o1, o2, o3⟩ := hold p h1 h2
      obtain ⟨g1, m, g2, g3⟩ := g.left p h1 hp2
      exact ⟨g1.congr o1 o2 o3, m, by rw [o1]; exact g2, g3⟩
    · exact hkid 0 (by norm_num)
    · exact hkid 1 (by norm_num)

/-- The root has one sample, in the left half. -/
structure Rooted (S : TPSampler ℝ 1) : Prop where
  ready : Ready (fun x => XF.fin (gapTarget x)) (fun _ => 1 / 2) (1 / 2) S
  root : Reached (fun _ => 1 / 2) (1 / 2) S.T 0
  pos : PosLeaf S.T 0

theorem Rooted.iterate (he : cfg.essTarget = some e) (h1e : 1 < e) (hm : cfg.nMin ≤ 1) (hpar : cfg.parallel ≤ 1)
    (hlr : cfg.leafResampling = false) {it : TPIter ℝ 1} (hit : it.Open) (h2 : it.draw 2 0 < 1 / 2) {S : TPSampler ℝ 1}
    (g : Rooted S) :
    ∃ S', TPSampler.iterate cfg (fun x => XF.fin (gapTarget x)) it S = .ok S' ∧ Stuck S' ∧
      S'.T.leaves.length = S.T.leaves.length + 1 := by
  obtain ⟨hl, n0, hn0, _, hns⟩ := g.root.root_leaf
  have hs : sortedLeaves S.T = [0] := by
    have := sortedLeaves_perm S.T
    rw [hl] at this
    exact List.perm_singleton.1 this
  obtain ⟨S', n, hS', r', hn, hrad, _, hlv, hlen, hnodes, hold, hnew⟩ :=
    iterate_split he h1e hm hpar hlr (by norm_num) hit g.ready hs g.pos
  have hN : S.T.nodes.length = 1 := by rw [hns]; rfl
  obtain ⟨root, hroot, hrc, hrr, _⟩ := g.root.root
  rw [hn] at hroot
  obtain rfl := Option.some.inj hroot
  rw [hN] at hlv hnodes hnew
  rw [hl] at hlv
  have hlv' : ∀ p, p ∈ S'.T.leaves ↔ p = 1 ∨ p = 2 := by
    intro p
    rw [hlv]
    simp only [List.mem_singleton]
    constructor
    · rintro (⟨a, b⟩ | a | a)
      · exact absurd a b
      · exact Or.inl a
      · exact Or.inr a
    · rintro (a | a)
      · exact Or.inr (Or.inl a)
      · exact Or.inr (Or.inr a)
  refine ⟨S', hS', ⟨r', by omega, ⟨(hlv' 2).2 (Or.inr rfl), ?_⟩, ⟨1, (hlv' 1).2 (Or.inl rfl), by norm_num⟩, ?_⟩, hlen⟩
  · obtain ⟨m, x, b1, b2, b3, b4, b5, b6, b7, b8⟩ := hnew 1 (by norm_num)
    have hu := (hit.1 2 0).1
    have hx : gapTarget x = 0 := by
      have h12 : (1 : ℕ) + 1 = 2 := rfl
      rw [b3, b2, hrc, hrr, h12] at b4
      push_cast at b4
      apply gapTarget_zero <;> rw [b4] <;> linarith
    rw [hx, zero_mul] at b8 b6
    rw [zero_mul] at b6
    exact ⟨m, x, b1, b6, b7, b8⟩
  · intro p hp hp2
    obtain rfl := ((hlv' p).1 hp).resolve_right hp2
    obtain ⟨m, x, b1, b2, b3, b4, b5, b6, b7, b8⟩ := hnew 0 (by norm_num)
    have hu := (hit.1 1 0).2
    have hmb : m.center 0 + m.radius ≤ 1 / 2 := by rw [b3, b2, hrc, hrr]; norm_num
    have hx : x 0 < 1 / 2 := by
      rw [b4, b3, b2, hrc, hrr]
      push_cast
      linarith
    have hp := gapTarget_pos hx
    exact ⟨⟨m, x, _, _, _, b1, b5, by positivity, b6, by positivity, b7, hx.le, b8, by positivity⟩, m, b1, hmb⟩

theorem getSamples_len (he : cfg.essTarget = some e) (h1e : 1 < e) {T : TPTree ℝ 1} (I : WF T) :
    ∃ o, T.getSamples cfg.essTarget = .ok o ∧ o = (maskSelect T.leavesIdx T.samples, maskSelect T.leavesIdx T.weights) ∧
      o.2.length = T.leaves.length := by
  have hget : T.getSamples cfg.essTarget = .ok (maskSelect T.leavesIdx T.samples, maskSelect T.leavesIdx T.weights) := by
    rw [he]
    unfold getSamples
    simp only [h1e, if_true]
  exact ⟨_, hget, rfl, (getSamples_leaves I h1e (by rw [← he]; exact hget)).2⟩

theorem Stuck.loop (he : cfg.essTarget = some e) (h1e : 1 < e) (hm : cfg.nMin ≤ 1) (hpar : cfg.parallel ≤ 1)
    (hlr : cfg.leafResampling = false) (nS : ℕ) : ∀ (its : List (TPIter ℝ 1)) (S : TPSampler ℝ 1),
    (∀ it ∈ its, it.Open ∧ it.late = false) → Stuck S → nS ≤ its.length + S.T.leaves.length →
    ∃ S', TPSampler.loop cfg (fun x => XF.fin (gapTarget x)) nS false its S = .ok (S', true) ∧ Stuck S' ∧
      nS ≤ S'.T.leaves.length
  | [], S, _, g, hn => by
    obtain ⟨e0, r⟩ := g.ready.reached
    obtain ⟨o, ho, _, hl⟩ := getSamples_len he h1e r.wf
    have hge : ¬ o.2.length < nS := by simp at hn; omega
    refine ⟨S, ?_, g, by simpa using hn⟩
    unfold TPSampler.loop
    simp only [ho, bind, Except.bind, pure, Except.pure]
    simp only [hge, false_and, not_false_eq_true, decide_true]
  | it :: its, S, hit, g, hn => by
    obtain ⟨e0, r⟩ := g.ready.reached
    obtain ⟨o, ho, _, hl⟩ := getSamples_len he h1e r.wf
    by_cases hlt : o.2.length < nS
    · obtain ⟨S1, h1, g1, l1⟩ := g.iterate he h1e hm hpar hlr (hit it (by simp)).1
      obtain ⟨S', h2, g2, l2⟩ := Stuck.loop he h1e hm hpar hlr nS its S1 (fun i hi => hit i (by simp [hi])) g1
        (by simp only [List.length_cons] at hn; omega)
      refine ⟨S', ?_, g2, l2⟩
      unfold TPSampler.loop
      simp only [ho, bind, Except.bind, pure, Except.pure, hlt, and_self, if_true, h1, (hit it (by simp)).2, h2]
    · refine ⟨S, ?_, g, by omega⟩
      unfold TPSampler.loop
      simp only [ho, bind, Except.bind, pure, Except.pure, hlt, false_and, if_false]

/-- The first sample of the root. -/
theorem initRoot_rooted {S : TPSampler ℝ 1} (hb : Blank (fun _ => 1 / 2) (1 / 2) S) {u : Pt ℝ 1}
    (hu : ∀ i, 0 < u i ∧ u i < 1) (hu2 : u 0 < 1 / 2) :
    ∃ S', initRoot (fun x => XF.fin (gapTarget x)) u S = .ok S' ∧ Rooted S' := by
  have hu' : ∀ i, 0 ≤ u i ∧ u i < 1 := fun i => ⟨(hu i).1.le, (hu i).2⟩
  obtain ⟨S', h', r'⟩ := initRoot_spec (target := fun x => XF.fin (gapTarget x)) (by norm_num : (0 : ℝ) < 1 / 2) hu'
    (Or.inl hb)
  have r0 := hb.reached
  obtain ⟨hl0, _⟩ := r0.root_leaf
  obtain ⟨root, hroot, h1, h2, h3⟩ := hb.root
  obtain ⟨root', hr', hrc, hrr, _⟩ := r0.root
  rw [hroot] at hr'
  obtain rfl := Option.some.inj hr'
  obtain ⟨Sv, hv, _⟩ := visit_spec (target := fun x => XF.fin (gapTarget x)) (by norm_num : (0 : ℝ) < 1 / 2) r0
    (draw := fun _ => u) (fun _ => hu') (p := 0) (by rw [hl0]; simp) (Or.inl ⟨root, hroot, h1, h2⟩)
  obtain ⟨n, hn, hs, a1, a2, a3, _⟩ := visit_full r0.wf hv
  rw [hroot] at hn
  obtain rfl := Option.some.inj hn
  have hT : S'.T = Sv.T.selfNormalize := by
    unfold initRoot at h'
    unfold visit at hv
    simp only [hroot, h2, h3, and_self, if_true, bind, Except.bind, pure, Except.pure] at h' hv
    cases g1 : S.T.sampleNode 0 (root.sampler.sample1 u) with
    | error e => simp [g1] at h'
    | ok T1 =>
      rw [g1] at h' hv
      simp only at h' hv
      cases g2 : T1.weighNode 0 (fun x => XF.fin (gapTarget x)) root.sampler.prob1 with
      | error e => simp [g2] at h'
      | ok T2 =>
        rw [g2] at h' hv
        simp only [Except.ok.injEq] at h' hv
        rw [updateModel_tree h', ← hv]
  have rv := r0.same hs
  have hs2 := selfNormalize_same rv.wf
  have hrad : 0 < root.radius := by rw [hrr]; norm_num
  obtain ⟨v1, v2⟩ := first_sample gapTarget hrad h2 hu
  have hw := weight_open gapTarget root hrad u hu
  rw [pow_one] at hw
  rw [hw] at a3
  have hx : root.sampler.sample1 u 0 < 1 / 2 := by
    simp only [Uniform.sample1, TPNode.sampler, hrc, hrr]
    linarith
  have hp := gapTarget_pos hx
  have hlv : Sv.T.leaves = [0] := rv.root_leaf.1
  have hnw := selfNormalize_weights rv.wf (fun _ => gapTarget (root.sampler.sample1 u) * (2 * root.radius)) (by
    intro p hp
    rw [hlv, List.mem_singleton] at hp
    rw [hp, a3]) (by rw [hlv]; simp only [List.map_cons, List.map_nil, List.sum_cons, List.sum_nil]; positivity) 0
    (by rw [hlv]; simp)
  refine ⟨S', h', r', by rw [hT]; exact rv.same hs2, ?_⟩
  rw [hT]
  refine ⟨_, _, _, _, _, by rw [selfNormalize_nodes]; exact a1, v1, by positivity, v2, by positivity, ?_, hx.le, hnw, ?_⟩
  · rw [selfNormalize_points]; exact a2
  · rw [hlv]; simp only [List.map_cons, List.map_nil, List.sum_cons, List.sum_nil]; positivity

end TPSampler

/-- **C118, refuted**: target `gapTarget`, which is continuous, non-negative and has mass beyond 3/4. The sampler splits
leaves of larger value first, so when the first sample of the right half falls in the gap (the root's first sample being
in the left half) that half is never sampled again: however many samples are asked for, the estimate of `gapTest`,
whose expectation is positive, is 0. The two conditions on the generator have probability 1/4. -/
theorem C118_refuted :
    Continuous gapTarget ∧ Continuous gapTest ∧ (∀ x, 0 ≤ gapTarget x) ∧
    (0 < ∫ x in closedCube (fun _ : Fin 1 => (1 : ℝ) / 2) (1 / 2), gapTest x * gapTarget x) ∧
    ∀ (cfg : TPConfig ℝ) (e : ℝ), cfg.essTarget = some e → 1 < e → cfg.nMin ≤ 1 → cfg.parallel ≤ 1 →
      cfg.leafResampling = false → ∀ S0, TPSampler.new (fun _ => 0) (fun _ => 1) = .ok S0 →
      ∀ (call : TPCall ℝ 1) (it : TPIter ℝ 1) (its : List (TPIter ℝ 1)), call.its = it :: its → call.OpenOnTime →
        2 ≤ call.n → call.n ≤ call.its.length + 1 → call.u0 0 < 1 / 2 → it.draw 2 0 < 1 / 2 →
        ∃ S' xs ws, TPSampler.importanceSampleSimple cfg (fun x => XF.fin (gapTarget x)) call.n call.u0 call.its S0
            = .ok (S', some (xs, ws)) ∧ call.n ≤ ws.length ∧ meanOver gapTest (xs, ws) = XF.fin 0 := by
  have hct : Continuous gapTarget := by unfold gapTarget; fun_prop
  have hcf : Continuous gapTest := by unfold gapTest; fun_prop
  have hnn : ∀ x, 0 ≤ gapTarget x := fun x => add_nonneg (le_max_left _ _) (le_max_left _ _)
  have hnf : ∀ x, 0 ≤ gapTest x := fun x => le_max_left _ _
  refine ⟨hct, hcf, hnn, ?_, ?_⟩
  · have hcont : Continuous fun x => gapTest x * gapTarget x := hcf.mul hct
    have hint : IntegrableOn (fun x => gapTest x * gapTarget x) (closedCube (fun _ : Fin 1 => (1 : ℝ) / 2) (1 / 2)) :=
      hcont.continuousOn.integrableOn_compact isCompact_Icc
    rw [setIntegral_pos_iff_support_of_nonneg_ae (Filter.Eventually.of_forall fun x => mul_nonneg (hnf x) (hnn x)) hint]
    have hsub : Set.univ.pi (fun _ : Fin 1 => Set.Ioo (3 / 4 : ℝ) 1) ⊆ Function.support (fun x => gapTest x * gapTarget x) ∩
        closedCube (fun _ : Fin 1 => (1 : ℝ) / 2) (1 / 2) := by
      intro x hx
      have hx0 := hx 0 (Set.mem_univ _)
      simp only [Set.mem_Ioo] at hx0
      refine ⟨?_, mem_closedCube.2 fun i => ?_⟩
      · have h1 : 0 < gapTest x := lt_of_lt_of_le (by linarith : 0 < x 0 - 1 / 2) (le_max_right _ _)
        have h2 : 0 < gapTarget x := by
          have a : x 0 - 3 / 4 ≤ max 0 (x 0 - 3 / 4) := le_max_right _ _
          have b : 0 ≤ max 0 (1 / 2 - x 0) := le_max_left _ _
          unfold gapTarget
          linarith
        exact (mul_pos h1 h2).ne'
      · fin_cases i
        simp only [Fin.zero_eta]
        constructor <;> linarith
    refine lt_of_lt_of_le ?_ (measure_mono hsub)
    rw [Real.volume_pi_Ioo]
    simp only [Finset.univ_unique, Finset.prod_singleton, ENNReal.ofReal_pos]
    norm_num
  · intro cfg e he h1e hm hpar hlr S0 h0 call it its hits hopen hn2 hn hu0 hd2
    obtain ⟨_, hb, _⟩ := TPSampler.new_root (dmin := fun _ : Fin 1 => (0 : ℝ)) (dmax := fun _ => 1) (fun _ => one_pos) h0
      (R := 1 / 2) ⟨⟨0, by norm_num⟩, by rintro _ ⟨i, rfl⟩; norm_num⟩
    have hc : (fun i : Fin 1 => ((fun _ => (0 : ℝ)) i + (fun _ => (1 : ℝ)) i) / 2) = fun _ => 1 / 2 := by
      funext i; norm_num
    rw [hc] at hb
    obtain ⟨S1, i1, g1⟩ := TPSampler.initRoot_rooted hb hopen.1 hu0
    have hl1 : S1.T.leaves.length = 1 := by rw [g1.root.root_leaf.1]; rfl
    have hopen2 := hopen.2
    rw [hits] at hopen2 hn
    obtain ⟨hit, hlate⟩ := hopen2 it (by simp)
    obtain ⟨S2, i2, g2, l2⟩ := g1.iterate he h1e hm hpar hlr hit hd2
    obtain ⟨S3, i3, g3, l3⟩ := g2.loop he h1e hm hpar hlr call.n its S2 (fun i hi => hopen2 i (by simp [hi]))
      (by simp only [List.length_cons] at hn; omega)
    have hloop : TPSampler.loop cfg (fun x => XF.fin (gapTarget x)) call.n false (it :: its) S1 = .ok (S3, true) := by
      obtain ⟨o, ho, _, hl⟩ := TPSampler.getSamples_len he h1e g1.root.wf
      have hlt : o.2.length < call.n := by omega
      unfold TPSampler.loop
      simp only [ho, bind, Except.bind, hlt, and_self, if_true, i2, hlate, i3]
    obtain ⟨e3, r3⟩ := g3.ready.reached
    obtain ⟨S4, u1, r4, u3, _⟩ := TPSampler.updateModel_spec g3.ready
    have same := selfNormalize_same r3.wf
    have hI4 : WF S4.T := by rw [u3]; exact same.inv r3.wf
    have hlv : S4.T.leaves = S3.T.leaves := by rw [u3, same.leaves]
    obtain ⟨o, ho, hoe, hol⟩ := TPSampler.getSamples_len he h1e hI4
    -- points and weights of the leaves
    have hall : ∀ p ∈ S3.T.leaves, ∃ (x : Pt ℝ 1) (w : ℝ), S3.T.samples[p]? = some x ∧ S3.T.weights[p]? = some (XF.fin w) ∧
        0 ≤ w ∧ (p ≠ 2 → 0 < w) ∧ gapTest x * w = 0 := by
      intro p hp
      by_cases h2 : p = 2
      · subst h2
        obtain ⟨n, x, _, _, a, b⟩ := g3.null.2
        exact ⟨x, 0, a, b, le_rfl, by simp, mul_zero _⟩
      · obtain ⟨⟨n, x, w, w', v, _, _, _, _, _, a, hx, b, hw⟩, _⟩ := g3.left p hp h2
        refine ⟨x, w', a, b, hw.le, fun _ => hw, ?_⟩
        unfold gapTest
        rw [max_eq_left (by linarith), zero_mul]
    choose! pt w k1 k2 k3 k4 k5 using hall
    have hsum : 0 < (S3.T.leaves.map w).sum := by
      obtain ⟨p, hp, hp2⟩ := g3.other
      have h1 : w p ≤ (S3.T.leaves.map w).sum := List.single_le_sum (by
        intro y hy
        obtain ⟨q, hq, rfl⟩ := List.mem_map.1 hy
        exact k3 q hq) _ (List.mem_map.2 ⟨p, hp, rfl⟩)
      exact lt_of_lt_of_le (k4 p hp hp2) h1
    have hnw := selfNormalize_weights r3.wf w k2 hsum
    have hmean := meanOver_leaves gapTest hI4 pt (fun p => w p / (S3.T.leaves.map w).sum)
      (fun p hp => by rw [u3, selfNormalize_points]; exact k1 p (by rw [← hlv]; exact hp))
      (fun p hp => by rw [u3]; exact hnw p (by rw [← hlv]; exact hp))
    refine ⟨S4, o.1, o.2, ?_, by rw [hol, hlv]; exact l3, ?_⟩
    · unfold TPSampler.importanceSampleSimple
      rw [hits]
      simp [i1, hloop, u1, ho, bind, Except.bind, pure, Except.pure]
    · rw [hoe, hmean, hlv]
      congr 1
      apply List.sum_eq_zero
      intro y hy
      obtain ⟨p, hp, rfl⟩ := List.mem_map.1 hy
      rw [← mul_div_assoc, k5 p hp, zero_div]

/-- C118 applied: with a generator that always returns 1/4, the estimate is 0 for every number of samples. -/
example (n : ℕ) (hn : 2 ≤ n) {S0 : TPSampler ℝ 1} (h0 : TPSampler.new (fun _ => 0) (fun _ => 1) = .ok S0) :
    ∃ S' xs ws, TPSampler.importanceSampleSimple ⟨some 2, 1, 1, false⟩ (fun x => XF.fin (gapTarget x)) n (fun _ => 1 / 4)
        (List.replicate n ⟨fun _ _ => 1 / 4, fun _ _ => 1 / 4, false⟩) S0 = .ok (S', some (xs, ws)) ∧ n ≤ ws.length ∧
      meanOver gapTest (xs, ws) = XF.fin 0 := by
  obtain ⟨m, rfl⟩ : ∃ m, n = m + 1 := ⟨n - 1, by omega⟩
  refine C118_refuted.2.2.2.2 ⟨some 2, 1, 1, false⟩ 2 rfl (by norm_num) le_rfl le_rfl rfl S0 h0
    ⟨m + 1, fun _ => 1 / 4, List.replicate (m + 1) ⟨fun _ _ => 1 / 4, fun _ _ => 1 / 4, false⟩⟩ _ _ List.replicate_succ
    ⟨fun i => by norm_num, ?_⟩ hn (by simp) (by norm_num) (by norm_num)
  intro it hit
  obtain rfl := List.eq_of_mem_replicate hit
  exact ⟨⟨fun _ _ => by norm_num, fun _ _ => by norm_num⟩, rfl⟩

theorem gapTarget_mass : 0 < ∫ x in closedCube (fun _ : Fin 1 => ((0 : ℝ) + 1) / 2) (1 / 2), gapTarget x := by
  obtain ⟨hct, hcf, hnn, hpos, _⟩ := C118_refuted
  rw [zero_add]
  refine lt_of_lt_of_le hpos (setIntegral_mono_on ((hcf.mul hct).continuousOn.integrableOn_compact isCompact_Icc)
    (hct.continuousOn.integrableOn_compact isCompact_Icc) measurableSet_Icc fun x hx => ?_)
  have h1 := (mem_closedCube.1 hx 0).2
  have h2 : gapTest x ≤ 1 := max_le (by norm_num) (by linarith)
  exact mul_le_of_le_one_left (hnn x) h2

/-- The partial result applies to the same target. -/
example (cfg : TPConfig ℝ) (he : cfg.essTarget = some 2) {S0 : TPSampler ℝ 1}
    (h0 : TPSampler.new (fun _ => 0) (fun _ => 1) = .ok S0) :
    ∃ η > 0, ∀ (call : TPCall ℝ 1) (S' : TPSampler ℝ 1) xs ws, call.Open →
      TPSampler.importanceSampleSimple cfg (fun x => XF.fin (gapTarget x)) call.n call.u0 call.its S0
          = .ok (S', some (xs, ws)) → (∀ n ∈ S'.T.nodes, n.isLeaf = true → n.radius ≤ η) →
      ∃ v, meanOver gapTest (xs, ws) = XF.fin v ∧
        |v - (∫ x in closedCube (fun _ : Fin 1 => ((0 : ℝ) + 1) / 2) (1 / 2), gapTest x * gapTarget x) /
          ∫ x in closedCube (fun _ : Fin 1 => ((0 : ℝ) + 1) / 2) (1 / 2), gapTarget x| < 1 / 100 :=
  C118_partial (dmin := fun _ : Fin 1 => (0 : ℝ)) (dmax := fun _ => 1) (fun _ => one_pos) (R := 1 / 2)
    ⟨⟨0, by norm_num⟩, by rintro _ ⟨i, rfl⟩; norm_num⟩ cfg he (by norm_num) h0 gapTarget gapTest
    C118_refuted.1.continuousOn C118_refuted.2.2.1 gapTarget_mass C118_refuted.2.1.continuousOn (by norm_num)

end Verif
