import Verif.Proof.TPMixVisit

set_option linter.unusedSectionVars false
set_option autoImplicit false

namespace Verif

variable {K : Type*} [Field K] [LinearOrder K] [IsStrictOrderedRing K] {d : ℕ}

open TPTree

theorem setWeights_single (w : K) : ∃ v : K, setWeights 1 [XF.fin w] = .ok [XF.fin v] := by
  by_cases h : w ≤ 0
  · exact ⟨0, by simp [setWeights, cleanWeights, maskSet, badWeight, XF.isNan, XF.leb, h, normWeights]⟩
  · have hw : 0 < w := not_le.1 h
    refine ⟨w / w, ?_⟩
    simp [setWeights, cleanWeights, maskSet, badWeight, XF.isNan, XF.leb, h, normWeights, XF.fin_div_ne _ _ hw.ne']

namespace TPTree

theorem shouldExpand_one {n : TPNode K d} {w : K} (h : n.weightHist = some [XF.fin w]) {t : K} (ht : 1 < t) {nMin : ℕ}
    (hm : nMin ≤ 1) : shouldExpand n (some t) nMin = .ok true := by
  unfold shouldExpand
  simp only [h, List.length_singleton]
  rw [if_neg (by omega), if_neg]
  simp only [List.sum_cons, List.sum_nil, add_zero, List.map_cons, List.map_nil, XF.fin_mul, XF.fin_div]
  split_ifs with h0
  · simp [XF.infMul, h0, XF.ltb]
  · simp only [div_self h0, XF.ltb, Nat.cast_one, mul_one, decide_eq_true_eq, not_lt]
    exact ht.le

/-- The tree after the expansion of the only node. -/
theorem Reached.children {c : Pt K d} {R : K} {T : TPTree K d} (r : Reached c R T 0) {n : TPNode K d}
    (hn : T.nodes[0]? = some n) :
    (∀ q, q ∈ (insertChildren T 0 n).1.leaves ↔ 1 ≤ q ∧ q < 1 + 2 ^ d) ∧
    (∀ q, 1 ≤ q → q < 1 + 2 ^ d → Fresh (insertChildren T 0 n).1 q ∧
      (insertChildren T 0 n).1.weights[q]? = some (XF.fin 0) ∧ ((insertChildren T 0 n).1.box q).2 = R / 2) ∧
    (insertChildren T 0 n).1.leafBoxes = (signVecs d).map fun s => (fun i => c i + R / 2 * s i, R / 2) := by
  obtain ⟨hl, m, hm, hml, _⟩ := r.root_leaf
  rw [hn] at hm
  obtain rfl : n = m := by simpa using hm
  obtain ⟨m, hm, hcen, hrad, _⟩ := r.root
  rw [hn] at hm
  obtain rfl : n = m := by simpa using hm
  have hN := r.nNodes
  simp only [Nat.zero_mul, Nat.add_zero] at hN
  refine ⟨?_, ?_, ?_⟩
  · intro q
    rw [insertChildren_leaves r.wf hn hml, hl, hN]
    simp
  rotate_left
  · obtain ⟨m', hm', hj⟩ := r.wf.leafPos 0 0 (by rw [hl]; rfl)
    rw [hn] at hm'
    obtain rfl : n = m' := by simpa using hm'
    obtain ⟨c0, cs, h1, h2⟩ := insertChildren_leafBoxes r.wf hn hj
    have h3 : T.leafBoxes.length = 1 := by simp [leafBoxes, hl]
    obtain ⟨b, hb⟩ := List.length_eq_one_iff.1 h3
    rw [h2, hb]
    have h4 : (childCenters n).map (fun x => (x, n.radius / 2)) = (c0, n.radius / 2) :: cs.map fun x => (x, n.radius / 2) := by
      rw [h1]; rfl
    simp only [List.set_cons_zero, List.cons_append, List.nil_append]
    rw [← h4, hrad]
    simp only [childCenters, List.map_map, hcen, hrad]
    rfl
  · intro q h1 h2
    refine ⟨insertChildren_new (by omega) (by omega) (by omega), ?_, ?_⟩
    · rw [insertChildren_eq]
      simp only
      rw [List.getElem?_append_right (by rw [r.wf.lenW]; omega), r.wf.lenW, hN, List.getElem?_replicate,
        if_pos (by omega)]
    · obtain ⟨c', hc'⟩ : ∃ c', (childCenters n)[q - T.nodes.length]? = some c' :=
        ⟨_, List.getElem?_eq_getElem (by rw [length_childCenters]; omega)⟩
      have : (insertChildren T 0 n).1.nodes[q]? = some (childAt T n (q - T.nodes.length) c') := by
        rw [insertChildren_eq]
        simp only
        rw [List.getElem?_set_ne (by omega), List.getElem?_append_right (by omega), kids_getElem?, hc']
        rfl
      simp [box, this, childAt, TPNode.new, hrad]

end TPTree

namespace TPSampler

theorem initRootMix_blank {target : Pt K d → XF K} {π : Pt K d → K} (hπ : ∀ x, target x = XF.fin (π x)) {c : Pt K d}
    {R : K} (hR : 0 < R) {S : TPSampler K d} (b : Blank c R S) {u : Pt K d} (hu : ∀ i, 0 < u i ∧ u i < 1) :
    ∃ (S' : TPSampler K d) (n : TPNode K d) (x : Pt K d), initRootMix target u S = .ok S' ∧ Reached c R S'.T 0 ∧
      S'.SingleBox c R ∧ S'.T.nodes[0]? = some n ∧ n.coordsHist = some [x] ∧
      n.weightHist = some [XF.fin (π x * (2 * R) ^ d)] ∧ n.histDeleted = false ∧
      (∀ i, c i - R < x i ∧ x i < c i + R) ∧
      (0 < π x → S'.T.weights[0]? = some (XF.fin 1)) := by
  obtain ⟨root, hroot, h1, h2, h3⟩ := b.root
  have r := b.reached
  obtain ⟨root', hr', hcen, hrad, _⟩ := r.root
  rw [hroot] at hr'
  obtain rfl : root = root' := by simpa using hr'
  set x := root.sampler.sample1 u with hx
  have hxin : ∀ i, c i - R < x i ∧ x i < c i + R := by
    intro i
    have := hu i
    rw [hx]
    simp only [TPNode.sampler, Uniform.sample1, hcen, hrad]
    constructor <;> nlinarith
  have hV : (0 : K) < (2 * R) ^ d := by positivity
  have hq : root.sampler.prob1 x = XF.fin (1 / (2 * R) ^ d) := by
    rw [sampler_prob1, if_pos (by intro i; rw [hcen, hrad]; exact ⟨(hxin i).1, (hxin i).2.le⟩), hrad,
      XF.fin_div_ne _ _ hV.ne']
  have hwt : target x / root.sampler.prob1 x = XF.fin (π x * (2 * R) ^ d) := by
    rw [hπ, hq, XF.fin_div_ne _ _ (by positivity)]
    congr 1
    field_simp
  obtain ⟨T1, g1, s1, _, gn, _, _, gnext⟩ := sampleWeigh' (target := target) r.wf hroot x
  obtain ⟨T2, g2, s2, gn2, gs2, gw2, _⟩ := gnext (root.sampler.prob1 x)
  have g2' : T1.weighNode 0 target root.sampler.prob1 = .ok T2 := by
    rw [← g2]
    unfold weighNode
    rw [gn]
    simp only
    have hidx : (root.sample x).nodeIdx < T1.weights.length := by
      have := (s1.inv r.wf).idx 0 _ gn
      rw [this, (s1.inv r.wf).lenW]
      exact (List.getElem?_eq_some_iff.1 gn).1
    rw [if_pos hidx, if_pos hidx]
    have e : (root.sample x).weigh target root.sampler.prob1 = (root.sample x).weigh target fun _ => root.sampler.prob1 x := rfl
    congr 2
    · apply List.ext_getElem?
      intro k
      rcases Nat.eq_zero_or_pos k with rfl | hk
      · rw [List.getElem?_modify_eq, List.getElem?_modify_eq, gn]
        simp [e]
      · rw [getElem?_modify_ne' _ _ (by omega), getElem?_modify_ne' _ _ (by omega)]
  have r2 := r.same s2
  obtain ⟨hl2, m2, hm2, hml2, hnodes2⟩ := r2.root_leaf
  rw [gn2] at hm2
  obtain rfl : (root.sample x).weigh target (fun _ => root.sampler.prob1 x) = m2 := by simpa using hm2
  have hwl : T2.weights = [XF.fin (π x * (2 * R) ^ d)] := by
    have hlen : T2.weights.length = 1 := by rw [r2.wf.lenW, hnodes2]; rfl
    obtain ⟨w, hw⟩ := List.length_eq_one_iff.1 hlen
    rw [hw] at gw2 ⊢
    rw [hwt] at gw2
    simpa using gw2
  have hmask : T2.leavesIdx = [true] := by rw [r2.wf.mask, hnodes2]; simp [hml2]
  have hc2 : T2.centers = [c] := by rw [r2.wf.centers, hnodes2]; simp [TPNode.weigh, TPNode.sample, hcen]
  have hr2 : T2.radii = [R] := by rw [r2.wf.radii, hnodes2]; simp [TPNode.weigh, TPNode.sample, hrad]
  obtain ⟨v, hv⟩ := setWeights_single (π x * (2 * R) ^ d)
  have hup : ∀ a b e : ℕ, updateModel ⟨T2, a, b, e, S.model⟩
      = .ok ⟨T2.selfNormalize, a, b, e, ([(c, R)], [XF.fin v])⟩ := by
    intro a b e
    unfold updateModel
    simp only [hmask, hc2, hr2, hwl, maskSelect, List.zip_cons_cons, List.zip_nil_right, List.length_singleton, hv,
      Except.map]
  refine ⟨⟨T2.selfNormalize, S.numQ + 1, S.numPi + 1, S.numQEvals + 1, ([(c, R)], [XF.fin v])⟩,
    (root.sample x).weigh target (fun _ => root.sampler.prob1 x), x, ?_, r2.same (selfNormalize_same r2.wf), ⟨v, rfl⟩,
    ?_, ?_, ?_, ?_, hxin, ?_⟩
  · unfold initRootMix
    simp only [hroot, h2, h3, and_self, if_true, bind, Except.bind]
    rw [← hx, g1]
    simp only [g2', hup]
  · simp only
    rw [← gn2]
    unfold selfNormalize
    simp only
    split_ifs <;> rfl
  · simp [TPNode.weigh, TPNode.sample, h1]
  · rw [← hwt]
    simp [TPNode.weigh, TPNode.sample, h2]
  · simp [TPNode.weigh, TPNode.sample, h3]
  · intro hpos
    have hp : 0 < π x * (2 * R) ^ d := by positivity
    simp only [selfNormalize, hmask, hwl, maskSelect, List.sum_cons, List.sum_nil, add_zero, XF.ltb, hp, decide_true,
      if_true, maskUpdate, List.zipIdx_singleton, List.zip_cons_cons, List.zip_nil_right, List.map_cons, List.map_nil]
    simp [XF.fin_div_ne _ _ hp.ne', div_self hp.ne']

/-- The first iteration from the root. `P` is a property of weights preserved by weighing. -/
theorem iterateMix_first {target : Pt K d → XF K} {cfg : TPConfig K} {t : K} (ht : cfg.essTarget = some t) (ht1 : 1 < t)
    (hm1 : cfg.nMin ≤ 1) {dmin dmax : Pt K d} {c : Pt K d} {R : K} (hR : 0 < R) {S : TPSampler K d} (r : Reached c R S.T 0)
    (hsb : S.SingleBox c R) {n : TPNode K d} (hn : S.T.nodes[0]? = some n) {w : K} (hw : n.weightHist = some [XF.fin w])
    {nS : ℕ} (hnS : 1 < nS) (fuel : ℕ) (it : TPMixIter K d)
    (P : XF K → Prop) (hPz : P (XF.fin 0)) (hP0 : ∀ x, P (target x / XF.fin 0))
    (hP : ∀ w x (b : K), P w → 0 < b → P (target x / (w / XF.fin b))) :
    ∃ S2 S' : TPSampler K d, iterateMix cfg dmin dmax target (fuel + 1) nS 1 it S = .ok S' ∧
      Reached c R S2.T 1 ∧ Same S2.T S'.T ∧
      S'.model = S.model ∧ (∀ q, q ∈ S2.T.leaves ↔ 1 ≤ q ∧ q < 1 + 2 ^ d) ∧ (∀ q ∈ S2.T.leaves, (S2.T.box q).2 = R / 2) ∧
      S2.T.leafBoxes = ((signVecs d).map fun s => (fun i => c i + R / 2 * s i, R / 2)) ∧
      (∀ p ∈ S'.T.leaves, Held S'.T p) ∧
      (cfg.leafResampling = false → S' = S2 ∧ (∀ p ∈ S'.T.leaves, ∃ w, S'.T.weights[p]? = some w ∧ P w) ∧
        ∃ x, S'.T.weights[1]? = some (target x / XF.fin 0)) ∧
      (cfg.leafResampling = true → S'.T.samples = (S2.T.resampleArrays target it.redraw).samples ∧
        S'.T.weights = ((S2.T.resampleArrays target it.redraw).selfNormalize).weights) := by
  obtain ⟨hl, m, hm, hml, _⟩ := r.root_leaf
  rw [hn] at hm
  obtain rfl : n = m := by simpa using hm
  have hN := r.nNodes
  simp only [Nat.zero_mul, Nat.add_zero] at hN
  have hsh := shouldExpand_one hw ht1 hm1
  have hpow : 0 < 2 ^ d := by positivity
  set k := (nS - 1 + (2 ^ d - 1)) / 2 ^ d with hk
  obtain ⟨wm, hwm⟩ := hsb
  have hbs := boxesSample_single c R wm it.pick it.pickAt k
  set pts := (List.range k).map fun j => Uniform.sample1 ⟨c, fun _ => R, (R * 2) ^ d⟩ (it.pickAt j) with hpts
  have hkpos : 0 < k := ceilDiv_pos (d := d) hnS
  have hne : pts.map (clipPt dmin dmax) ≠ [] := by
    intro h0
    have := congrArg List.length h0
    simp [hpts] at this
    omega
  have hexp : expandNodes (some t) cfg.nMin (nS - 1) S.T [0] []
      = .ok ((insertChildren S.T 0 n).1, List.range' 1 (2 ^ d)) := by
    have h2 : (insertChildren S.T 0 n).2 = List.range' 1 (2 ^ d) := by rw [insertChildren_eq, hN]
    simp only [expandNodes, expand, hn, hml, hsh, h2]
    simp
  have rI : Reached c R (insertChildren S.T 0 n).1 1 := by
    rcases r.expandNodes_root hexp with ⟨_, h⟩ | ⟨n', hn', _, h1, _, h3⟩
    · exfalso
      have := congrArg List.head? h
      rw [show (2 : ℕ) ^ d = (2 ^ d - 1) + 1 by omega, List.range'_succ] at this
      simp at this
    · exact h3
  obtain ⟨hlv, hfresh, hlb⟩ := r.children hn
  set I := (insertChildren S.T 0 n).1 with hI
  set S1 : TPSampler K d := { S with T := I, numQ := S.numQ + k } with hS1
  have hsb1 : S1.SingleBox c R := ⟨wm, hwm⟩
  have h1mem : 1 ∈ I.leaves := (hlv 1).2 ⟨le_refl _, by omega⟩
  obtain ⟨Sa, x, q, ha, sa, hma, _, hq, _, hsa, hwa, hha, _, hoa⟩ := visitMix_spec (target := target) (it := it) hR hsb1
    (show Reached c R S1.T 1 from rI) (p := 1) h1mem (Or.inl (hfresh 1 (le_refl _) (by omega)).1)
  have hq0 : q = XF.fin 0 := by
    rcases hq with h | ⟨p', hp', w', hw', h⟩
    · exact h
    · have hp2 := (hlv p').1 hp'
      have := (hfresh p' hp2.1 hp2.2).2.1
      have e : XF.fin 0 = w' := by
        have := hw'.symm.trans this
        simpa using this.symm
      have hpos := rI.box_pos hR hp'
      have hb : (2 * (I.box p').2) ^ d ≠ 0 := by positivity
      rw [h, ← e]
      show (XF.fin 0 / XF.fin ((2 * (I.box p').2) ^ d) : XF K) = _
      rw [XF.fin_div_ne _ _ hb, zero_div]
  subst hq0
  have hlva : ∀ q, q ∈ Sa.T.leaves ↔ 1 ≤ q ∧ q < 1 + 2 ^ d := by
    intro q; rw [sa.leaves]; exact hlv q
  obtain ⟨S2, h2, s2, hm2, hh2, hP2, ho2⟩ := visitsMix_spec (target := target) (it := it) hR P hP0 hP
    (List.range' 2 (2 ^ d - 1)) Sa 1 ⟨wm, hma.trans hwm⟩ ((show Reached c R S1.T 1 from rI).same sa) (by
      intro p hp
      rw [List.mem_range'_1] at hp
      rw [hlva]; omega) (by
      intro p hp
      rw [hlva] at hp
      by_cases h1 : p = 1
      · subst h1; exact Or.inl hha
      · right
        refine ⟨by rw [List.mem_range'_1]; omega, ?_⟩
        obtain ⟨m, hm, hf⟩ := (hfresh p hp.1 hp.2).1
        exact ⟨m, by rw [(hoa p h1).1]; exact hm, hf⟩) (by
      intro p hp
      rw [hlva] at hp
      by_cases h1 : p = 1
      · subst h1; exact ⟨_, hwa, hP0 x⟩
      · exact ⟨_, by rw [(hoa p h1).2.2]; exact (hfresh p hp.1 hp.2).2.1, hPz⟩)
  have hfold : (List.range' 1 (2 ^ d)).foldlM (visitMix target it) S1 = .ok S2 := by
    rw [show (2 : ℕ) ^ d = (2 ^ d - 1) + 1 by omega, List.range'_succ, List.foldlM_cons, ha]
    exact h2
  have r2 : Reached c R S2.T 1 := ((show Reached c R S1.T 1 from rI).same sa).same s2
  have ss := sa.trans s2
  have hlv2 : ∀ q, q ∈ S2.T.leaves ↔ 1 ≤ q ∧ q < 1 + 2 ^ d := by
    intro q; rw [ss.leaves]; exact hlv q
  have hbox2 : ∀ q ∈ S2.T.leaves, (S2.T.box q).2 = R / 2 := by
    intro q hq
    have hq' := (hlv2 q).1 hq
    rw [ss.box]
    exact (hfresh q hq'.1 hq'.2).2.2
  have hlb2 : S2.T.leafBoxes = (signVecs d).map fun s => (fun i => c i + R / 2 * s i, R / 2) := by
    rw [← hlb]
    unfold leafBoxes
    rw [ss.leaves]
    apply List.map_congr_left
    intro q _
    exact ss.box q
  have hw1 : ∃ x, S2.T.weights[1]? = some (target x / XF.fin 0) := by
    refine ⟨x, ?_⟩
    rw [ho2 1 (by rw [List.mem_range'_1]; omega), hwa]
  have hmod : S2.model = S.model := hm2.trans hma
  have hfu := r.findUnique_root fuel (pts.map (clipPt dmin dmax)) hne
  have hstep : ∀ b, cfg.leafResampling = b → iterateMix cfg dmin dmax target (fuel + 1) nS 1 it S =
      if b then (do
        let T3 ← S2.T.resample target it.redraw
        let n := S2.T.leaves.length
        return { S2 with T := T3, numQ := S2.numQ + n, numPi := S2.numPi + n, numQEvals := S2.numQEvals + n })
      else .ok S2 := by
    intro b hb
    unfold iterateMix
    have hbs' : boxesSample S.model it.pick it.pickAt ((nS - 1 + (2 ^ d - 1)) / 2 ^ d) = .ok pts := by
      rw [hwm, ← hk, hbs]
    simp only [hbs', ht, bind, Except.bind, pure, Except.pure, hfu, hexp, hb]
    have := hfold
    rw [hS1] at this
    rw [this]
  cases hlr : cfg.leafResampling with
  | false =>
    refine ⟨S2, S2, by rw [hstep false hlr]; simp, r2, Same.refl _, hmod, hlv2, hbox2, hlb2, hh2, fun _ => ⟨rfl, hP2, hw1⟩, by simp⟩
  | true =>
    obtain ⟨T3, k1, k2, k3, k4, k5⟩ := resample_held (target := target) r2.wf it.redraw hh2
    refine ⟨S2, { S2 with T := T3, numQ := S2.numQ + S2.T.leaves.length, numPi := S2.numPi + S2.T.leaves.length
                          numQEvals := S2.numQEvals + S2.T.leaves.length }, ?_, r2, k2, hmod, hlv2, hbox2, hlb2, k3, by simp,
      fun _ => ⟨k4, k5⟩⟩
    rw [hstep true hlr]
    simp only [if_true, k1, bind, Except.bind, pure, Except.pure]

end TPSampler
end Verif

namespace Verif

variable {K : Type*} [Field K] [LinearOrder K] [IsStrictOrderedRing K] {d : ℕ}

open TPTree

namespace TPSampler

theorem getSamples_gt {T : TPTree K d} {t : K} (ht : 1 < t) :
    T.getSamples (some t) = .ok (maskSelect T.leavesIdx T.samples, maskSelect T.leavesIdx T.weights) := by
  unfold TPTree.getSamples
  simp [ht]

theorem updateModel_ok {S : TPSampler K d} (I : WF S.T) :
    ∃ S', S.updateModel = .ok S' ∧ S'.T = S.T.selfNormalize := by
  unfold updateModel
  have h1 : (maskSelect S.T.leavesIdx S.T.centers).length = (maskSelect S.T.leavesIdx S.T.weights).length :=
    length_maskSelect _ _ _ (by rw [I.centers, I.lenW]; simp)
  have h2 : (maskSelect S.T.leavesIdx S.T.radii).length = (maskSelect S.T.leavesIdx S.T.weights).length :=
    length_maskSelect _ _ _ (by rw [I.radii, I.lenW]; simp)
  have h3 : ((maskSelect S.T.leavesIdx S.T.centers).zip (maskSelect S.T.leavesIdx S.T.radii)).length
      = (maskSelect S.T.leavesIdx S.T.weights).length := by
    rw [List.length_zip, h1, h2, min_self]
  simp only [setWeights, h3, if_true, Except.map]
  exact ⟨_, rfl, rfl⟩

/-- The first call, up to the end of the first iteration, and what follows. -/
theorem callMix_first {target : Pt K d → XF K} {π : Pt K d → K} (hπ : ∀ x, target x = XF.fin (π x)) {cfg : TPConfig K}
    {t : K} (ht : cfg.essTarget = some t) (ht1 : 1 < t) (hm1 : cfg.nMin ≤ 1) {dmin dmax : Pt K d}
    (hlt : ∀ i, dmin i < dmax i) {R : K} (hR : 0 < R) (hRb : ∀ i, (dmax i - dmin i) / 2 ≤ R)
    {S : TPSampler K d} (b : Blank (fun i => (dmin i + dmax i) / 2) R S)
    {nS : ℕ} (hnS : 1 < nS) (fuel : ℕ) {u0 : Pt K d} (hu : ∀ i, 0 < u0 i ∧ u0 i < 1) (it : TPMixIter K d)
    (rest : List (TPMixIter K d))
    (P : XF K → Prop) (hPz : P (XF.fin 0)) (hP0 : ∀ x, P (target x / XF.fin 0))
    (hP : ∀ w x (b : K), P w → 0 < b → P (target x / (w / XF.fin b))) :
    ∃ S2 S' : TPSampler K d,
      Reached (fun i => (dmin i + dmax i) / 2) R S2.T 1 ∧ Same S2.T S'.T ∧
      (∀ q, q ∈ S2.T.leaves ↔ 1 ≤ q ∧ q < 1 + 2 ^ d) ∧ (∀ q ∈ S2.T.leaves, (S2.T.box q).2 = R / 2) ∧
      S2.T.leafBoxes = ((signVecs d).map fun s => (fun i => (dmin i + dmax i) / 2 + R / 2 * s i, R / 2)) ∧
      (cfg.leafResampling = false → S' = S2 ∧ (∀ p ∈ S'.T.leaves, ∃ w, S'.T.weights[p]? = some w ∧ P w) ∧
        ∃ x, S'.T.weights[1]? = some (target x / XF.fin 0)) ∧
      (cfg.leafResampling = true → S'.T.samples = (S2.T.resampleArrays target it.redraw).samples ∧
        S'.T.weights = ((S2.T.resampleArrays target it.redraw).selfNormalize).weights) ∧
      (nS ≤ 2 ^ d → ∃ Sf, importanceSampleMix cfg dmin dmax target (fuel + 1) ⟨nS, u0, it :: rest⟩ S =
          .ok (Sf, some (maskSelect Sf.T.leavesIdx Sf.T.samples, maskSelect Sf.T.leavesIdx Sf.T.weights)) ∧
          Sf.T = S'.T.selfNormalize) ∧
      (2 ^ d < nS → it.late = false → rest ≠ [] →
        importanceSampleMix cfg dmin dmax target (fuel + 1) ⟨nS, u0, it :: rest⟩ S = .error .runtime) := by
  obtain ⟨S0, n, x, h0, r0, sb0, hn0, _, hw0, _⟩ := initRootMix_blank hπ hR b hu
  obtain ⟨S2, S', h1, r2, s2, hmod, hlv, hbox, hlb, _, hA, hB⟩ := iterateMix_first (dmin := dmin) (dmax := dmax) ht ht1 hm1 hR r0
    sb0 hn0 hw0 hnS fuel it P hPz hP0 hP
  have r' := r2.same s2
  refine ⟨S2, S', r2, s2, hlv, hbox, hlb, hA, hB, ?_, ?_⟩
  all_goals
    have hg0 := getSamples_gt (T := S0.T) ht1
    have hlen0 : (maskSelect S0.T.leavesIdx S0.T.weights).length = 1 := by
      have := (getSamples_leaves r0.wf ht1 hg0).2
      simp only at this
      rw [this, r0.root_leaf.1]; rfl
    have hg1 := getSamples_gt (T := S'.T) ht1
    have hlen1 : (maskSelect S'.T.leavesIdx S'.T.weights).length = 2 ^ d := by
      have := (getSamples_leaves r'.wf ht1 hg1).2
      simp only at this
      have hp : 0 < 2 ^ d := by positivity
      rw [this, r'.nLeaves]; omega
    have hloop : loopMix cfg dmin dmax target (fuel + 1) nS false (it :: rest) S0
        = loopMix cfg dmin dmax target (fuel + 1) nS it.late rest S' := by
      simp only [loopMix, ht, hg0, bind, Except.bind, hlen0]
      rw [if_pos ⟨hnS, trivial⟩, h1]
  · intro hle
    have hend : loopMix cfg dmin dmax target (fuel + 1) nS it.late rest S' = .ok (S', true) := by
      cases rest with
      | nil =>
        simp only [loopMix, ht, hg1, bind, Except.bind, hlen1, pure, Except.pure]
        simp [not_lt.2 hle]
      | cons a l =>
        simp only [loopMix, ht, hg1, bind, Except.bind, hlen1, pure, Except.pure]
        rw [if_neg (by omega)]
    obtain ⟨Sf, hf1, hf2⟩ := updateModel_ok r'.wf
    refine ⟨Sf, ?_, hf2⟩
    unfold importanceSampleMix
    simp only [h0, hloop, hend, bind, Except.bind, if_true, hf1, ht, getSamples_gt ht1, pure, Except.pure]
  · intro hgt hlate hne
    cases rest with
    | nil => exact absurd rfl hne
    | cons a l =>
      have herr : iterateMix cfg dmin dmax target (fuel + 1) nS (2 ^ d) a S' = .error .runtime := by
        obtain ⟨wm, hwm⟩ := sb0
        unfold iterateMix
        have hbs : boxesSample S'.model a.pick a.pickAt ((nS - 2 ^ d + (2 ^ d - 1)) / 2 ^ d)
            = .ok ((List.range ((nS - 2 ^ d + (2 ^ d - 1)) / 2 ^ d)).map fun k =>
              Uniform.sample1 ⟨(fun i => (dmin i + dmax i) / 2), fun _ => R, (R * 2) ^ d⟩ (a.pickAt k)) := by
          rw [hmod, hwm, boxesSample_single]
        simp only [hbs, bind, Except.bind]
        rw [r'.findUnique_inner (by omega)]
        · intro hnil
          have hc := congrArg List.length hnil
          simp only [List.length_map, List.length_range, List.length_nil] at hc
          have := ceilDiv_pos (d := d) hgt
          omega
        · intro y hy
          obtain ⟨z, _, rfl⟩ := List.mem_map.1 hy
          exact clipPt_mem hlt hRb z
      have hend : loopMix cfg dmin dmax target (fuel + 1) nS it.late (a :: l) S' = .error .runtime := by
        simp only [loopMix, ht, hg1, bind, Except.bind, hlen1, hlate]
        rw [if_pos ⟨hgt, trivial⟩, herr]
      unfold importanceSampleMix
      simp only [h0, bind, Except.bind]
      rw [hloop, hend]

end TPSampler
end Verif
