import Verif.Proof.TPConvResample
import Verif.Proof.TPMixFirst

/-!
The sampling loop of the tree pyramid on a positive target: every leaf gets split sooner or later.
-/

set_option linter.unusedSectionVars false
set_option autoImplicit false

namespace Verif

variable {d : ℕ}

theorem TPIter.Open.valid {it : TPIter ℝ d} (h : it.Open) : it.Valid :=
  ⟨fun p i => ⟨(h.1 p i).1.le, (h.1 p i).2⟩, fun p i => ⟨(h.2 p i).1.le, (h.2 p i).2⟩⟩

namespace TPSampler

open TPTree

/-- Invariant of the sampling loop. -/
structure Good (cfg : TPConfig ℝ) (t : Pt ℝ d → ℝ) (c : Pt ℝ d) (R A B : ℝ) (S : TPSampler ℝ d) : Prop where
  ready : Ready (fun x => XF.fin (t x)) c R S
  lev : Leveled R S.T
  leaf : ∀ p ∈ S.T.leaves, LeafOK A B S.T p
  cache : Reached c R S.T 0 ∨ ∃ s > 0, (cfg.leafResampling = false → s = 1) ∧ ∀ p ∈ S.T.leaves, CacheOK t s S.T p

/-- A leaf at level `L` or deeper always has a smaller value than a leaf above level `k`. -/
def Sep (d : ℕ) (R A B : ℝ) (k L : ℕ) : Prop :=
  k ≤ L ∧ B * ((2 * (R / 2 ^ L)) ^ d * (2 * (R / 2 ^ L)) ^ d) < A * ((R / 2 ^ k) ^ d * (R / 2 ^ k) ^ d)

theorem exists_sep (hd : 0 < d) {R A B : ℝ} (hR : 0 < R) (hA : 0 < A) (k : ℕ) : ∃ L, Sep d R A B k L := by
  have h1 : Filter.Tendsto (fun L : ℕ => B * ((2 * (R / 2 ^ L)) ^ d * (2 * (R / 2 ^ L)) ^ d)) Filter.atTop
      (nhds (B * ((2 * 0) ^ d * (2 * 0) ^ d))) := by
    have h2 : Filter.Tendsto (fun L : ℕ => R / 2 ^ L) Filter.atTop (nhds 0) := by
      have := (tendsto_pow_atTop_nhds_zero_of_lt_one (r := (1/2 : ℝ)) (by norm_num) (by norm_num)).const_mul R
      rw [mul_zero] at this
      refine this.congr fun L => ?_
      rw [one_div, inv_pow, div_eq_mul_inv]
    have h3 := (h2.const_mul 2).pow d
    exact (h3.mul h3).const_mul B
  have h0 : B * ((2 * (0:ℝ)) ^ d * (2 * 0) ^ d) = 0 := by
    rw [mul_zero, zero_pow hd.ne']; ring
  rw [h0] at h1
  have hpos : 0 < A * ((R / 2 ^ k) ^ d * (R / 2 ^ k) ^ d) := by positivity
  obtain ⟨L, hL1, hL2⟩ := ((h1.eventually (gt_mem_nhds hpos)).and (Filter.eventually_ge_atTop k)).exists
  exact ⟨L, hL2, hL1⟩

theorem LeafOK.value {A B : ℝ} {T : TPTree ℝ d} {p : ℕ} (h : LeafOK A B T p) {n : TPNode ℝ d} (hn : T.nodes[p]? = some n) :
    ∃ v, T.valueAt p = XF.fin v ∧ A * (n.radius ^ d * n.radius ^ d) ≤ v ∧
      v ≤ B * ((2 * n.radius) ^ d * (2 * n.radius) ^ d) := by
  obtain ⟨n', ws, v, h1, _, _, _, h2, h3, h4⟩ := h
  rw [hn] at h1
  obtain rfl := Option.some.inj h1
  exact ⟨v, by unfold valueAt; rw [hn]; exact h2, h3, h4⟩

theorem sep_value {R A B : ℝ} (hR : 0 < R) (hA : 0 < A) (hB : 0 < B) {k L : ℕ} (hs : Sep d R A B k L) {T : TPTree ℝ d}
    (hlev : Leveled R T) {p q : ℕ} {n n' : TPNode ℝ d} (hn : T.nodes[p]? = some n) (hn' : T.nodes[q]? = some n')
    (hp : LeafOK A B T p) (hq : LeafOK A B T q) (h1 : n.level < k) (h2 : L ≤ n'.level) :
    XF.ltb (T.valueAt q) (T.valueAt p) = true := by
  obtain ⟨v, e1, a1, _⟩ := LeafOK.value hp hn
  obtain ⟨w, e2, _, b2⟩ := LeafOK.value hq hn'
  rw [e1, e2]
  simp only [XF.ltb, decide_eq_true_eq]
  have r1 := hlev n (List.mem_iff_getElem?.2 ⟨p, hn⟩)
  have r2 := hlev n' (List.mem_iff_getElem?.2 ⟨q, hn'⟩)
  have g1 : R / 2 ^ k ≤ n.radius := by
    rw [r1]
    exact div_le_div_of_nonneg_left hR.le (by positivity) (pow_le_pow_right₀ (by norm_num) h1.le)
  have g2 : n'.radius ≤ R / 2 ^ L := by
    rw [r2]
    exact div_le_div_of_nonneg_left hR.le (by positivity) (pow_le_pow_right₀ (by norm_num) h2)
  have p1 : 0 < n.radius := by rw [r1]; positivity
  have p2 : 0 < n'.radius := by rw [r2]; positivity
  have k1 : (R / 2 ^ k) ^ d ≤ n.radius ^ d := pow_le_pow_left₀ (by positivity) g1 d
  have k2 : (2 * n'.radius) ^ d ≤ (2 * (R / 2 ^ L)) ^ d := pow_le_pow_left₀ (by positivity) (by linarith) d
  calc w ≤ B * ((2 * n'.radius) ^ d * (2 * n'.radius) ^ d) := b2
    _ ≤ B * ((2 * (R / 2 ^ L)) ^ d * (2 * (R / 2 ^ L)) ^ d) :=
        mul_le_mul_of_nonneg_left (mul_le_mul k2 k2 (by positivity) (by positivity)) hB.le
    _ < A * ((R / 2 ^ k) ^ d * (R / 2 ^ k) ^ d) := hs.2
    _ ≤ A * (n.radius ^ d * n.radius ^ d) :=
        mul_le_mul_of_nonneg_left (mul_le_mul k1 k1 (by positivity) (by positivity)) hA.le
    _ ≤ v := a1

theorem pot_pos {k m : ℕ} {T : TPTree ℝ d} {p : ℕ} (hp : p ∈ T.leaves) {n : TPNode ℝ d} (hn : T.nodes[p]? = some n)
    (h : n.level < k) : 0 < pot k m T := by
  unfold pot
  apply lt_of_lt_of_le _ (Finset.single_le_sum (f := fun p => work d k m T.nodes[p]?) (fun _ _ => Nat.zero_le _)
    (List.mem_toFinset.2 hp))
  simp only [hn]
  rw [work_some, if_pos h]
  have : k - n.level = (k - n.level - 1) + 1 := by omega
  rw [this, need]
  omega

theorem exists_of_pot_pos {k m : ℕ} {T : TPTree ℝ d} (h : 0 < pot k m T) :
    ∃ p ∈ T.leaves, ∃ n, T.nodes[p]? = some n ∧ n.level < k := by
  unfold pot at h
  obtain ⟨p, hp, hw⟩ := Finset.exists_ne_zero_of_sum_ne_zero h.ne'
  refine ⟨p, List.mem_toFinset.1 hp, ?_⟩
  cases hn : T.nodes[p]? with
  | none => rw [hn] at hw; exact absurd rfl hw
  | some n =>
    rw [hn, work_some] at hw
    split_ifs at hw with hk
    · exact ⟨n, rfl, hk⟩
    · exact absurd rfl hw

/-- One iteration. -/
theorem iterate_good {cfg : TPConfig ℝ} {e : ℝ} (he : cfg.essTarget = some e) (h1e : 1 < e) {t : Pt ℝ d → ℝ} {c : Pt ℝ d}
    {R A B m M : ℝ} (kc : Consts t c R A B m M) {it : TPIter ℝ d} (hit : it.Open) {S : TPSampler ℝ d}
    (g : Good cfg t c R A B S) : ∃ S', iterate cfg (fun x => XF.fin (t x)) it S = .ok S' ∧ Good cfg t c R A B S' ∧
      S'.T.leaves.length ≤ S.T.leaves.length * (1 + 2 ^ d) ∧
      (∀ L, pot L cfg.nMin S'.T ≤ pot L cfg.nMin S.T) ∧
      ∀ k L, Sep d R A B k L → 0 < pot k cfg.nMin S.T → pot L cfg.nMin S'.T < pot L cfg.nMin S.T := by
  have hA := kc.A0
  have hB : 0 < B := kc.m0.trans_le (kc.mM.trans kc.MB)
  obtain ⟨S', hS', r', _⟩ := iterate_spec kc.R0 cfg hit.valid g.ready
  obtain ⟨e0, hr⟩ := g.ready.reached
  have hperm := sortedLeaves_perm S.T
  have hnd : (sortedLeaves S.T).Nodup := hperm.nodup_iff.2 hr.wf.leavesNodup
  have hmem : ∀ p ∈ sortedLeaves S.T, p ∈ S.T.leaves := fun p hp => hperm.mem_iff.1 hp
  obtain ⟨T1, new, S2, hx, hv, hres⟩ := iterate_parts hS'
  obtain ⟨⟨e1, r1⟩, _, a3, a4, _⟩ := expandNodes_spec cfg.essTarget cfg.nMin cfg.parallel (sortedLeaves S.T) S.T T1 e0 []
    new hr hx (by simpa using hnd) (by simpa using hmem)
  have hsame2 : Same T1 S2.T := visits_same new { S with T := T1 } S2 hv
  have r2 := r1.same hsame2
  have hleafT1 : ∀ p ∈ T1.leaves, LeafOK A B T1 p ∨ (p ∈ new ∧ Fresh T1 p) := by
    intro p hp
    rcases a4 p hp with ⟨g1, g2, _⟩ | ⟨g1, g2⟩
    · exact Or.inl ((g.leaf p g1).congr g2)
    · exact Or.inr ⟨g1, g2⟩
  have hvis := visits_ok kc hit.1 new { S with T := T1 } S2 e1 r1 a3 hleafT1 hv
  have hleaf2 : ∀ p ∈ S2.T.leaves, LeafOK A B S2.T p := by
    intro p hp
    rw [hsame2.leaves] at hp
    exact (hvis p hp).1
  have hEx := fun L => expandNodes_pot L cfg.nMin (sortedLeaves S.T) S.T T1 e0 [] new hr g.lev hx hnd hmem
  have hVp := fun L => visits_pot L cfg.nMin new { S with T := T1 } S2 r1.wf a3 hv
  simp only at hVp
  obtain ⟨hlev1, _, hlen, _⟩ := hEx 0
  have hlev2 := hlev1.same hsame2
  -- potentials after the visits
  have hpot2 : ∀ L, pot L cfg.nMin S2.T ≤ pot L cfg.nMin S.T := by
    intro L
    obtain ⟨_, _, _, _, _, _, _, hp, _⟩ := hEx L
    exact (hVp L).1.trans hp
  have hdec2 : ∀ k L, Sep d R A B k L → 0 < pot k cfg.nMin S.T → pot L cfg.nMin S2.T < pot L cfg.nMin S.T := by
    intro k L hs hk
    obtain ⟨p0, hp0, n0, hn0, hlt0⟩ := exists_of_pot_pos hk
    obtain ⟨_, _, _, done, rest, d1, d2, d3, d4⟩ := hEx L
    have hps : p0 ∈ done ++ rest := by rw [← d1]; exact hperm.mem_iff.2 hp0
    have hne : done ≠ [] := d2 (by rw [d1]; exact List.ne_nil_of_mem hps)
    have hdl : ∀ p ∈ done, p ∈ S.T.leaves := fun p hp => hmem p (by rw [d1]; simp [hp])
    have key : ∀ p ∈ done, ∀ n, S.T.nodes[p]? = some n → n.level < L → pot L cfg.nMin S2.T < pot L cfg.nMin S.T := by
      intro p hp n hn hlt
      rcases d4 p hp n hn hlt with h | ⟨h5, h6, h7⟩
      · exact lt_of_le_of_lt (hVp L).1 h
      · refine lt_of_lt_of_le ((hVp L).2 ⟨p, h6, n, h7, hlt, ?_⟩) d3
        obtain ⟨n', ws, v, w1, w2, w3, w4, _⟩ := g.leaf p (hdl p hp)
        rw [hn] at w1
        obtain rfl := Option.some.inj w1
        have hlo : 0 < A * (2 * n.radius) ^ d := by
          have := g.lev n (List.mem_iff_getElem?.2 ⟨p, hn⟩)
          have hR := kc.R0
          rw [this]; positivity
        rw [he, shouldExpand_count hlo h1e.le w2 w4 w3] at h5
        simp only [Except.ok.injEq, decide_eq_false_iff_not, not_le] at h5
        rw [w2]
        exact h5
    by_cases hex : ∃ p ∈ done, ∃ n, S.T.nodes[p]? = some n ∧ n.level < L
    · obtain ⟨p, hp, n, hn, hlt⟩ := hex
      exact key p hp n hn hlt
    · exfalso
      push Not at hex
      obtain ⟨q, hq⟩ := List.exists_mem_of_ne_nil _ hne
      obtain ⟨nq, hnq, _⟩ := hr.wf.leaf_node (hdl q hq)
      have hLq := hex q hq nq hnq
      have hp0d : p0 ∉ done := by
        intro h
        have := hex p0 h n0 hn0
        have := hs.1
        omega
      have hp0r : p0 ∈ rest := (List.mem_append.1 hps).resolve_left hp0d
      have hsorted := sortedLeaves_pairwise S.T (by
        intro x hx
        obtain ⟨nx, hnx, _⟩ := hr.wf.leaf_node hx
        obtain ⟨v, hv, _⟩ := LeafOK.value (g.leaf x hx) hnx
        rw [hv]
        simp)
      rw [d1, List.pairwise_append] at hsorted
      have h1 := hsorted.2.2 q hq p0 hp0r
      have h2 := sep_value kc.R0 hA hB hs g.lev hn0 hnq (g.leaf p0 hp0) (g.leaf q (hdl q hq)) hlt0 hLq
      rw [h1] at h2
      cases h2
  have hlen2 : T1.leaves.length ≤ S.T.leaves.length * (1 + 2 ^ d) := by
    rw [hperm.length_eq] at hlen
    calc T1.leaves.length ≤ S.T.leaves.length + 2 ^ d * S.T.leaves.length := hlen
      _ = _ := by ring
  refine ⟨S', hS', ?_⟩
  rcases hres with ⟨hb, hres⟩ | ⟨hb, rfl⟩
  · obtain ⟨q1, ⟨s, hs0, q2⟩, q3⟩ := resample_ok kc r2 hit.2 hleaf2 hres
    have hs3 := resample_same r2.wf hres
    refine ⟨⟨r', hlev2.same hs3, q1, Or.inr ⟨s, hs0, by simp [hb], q2⟩⟩, ?_, ?_, ?_⟩
    · rw [hs3.leaves, hsame2.leaves]; exact hlen2
    · intro L; rw [q3]; exact hpot2 L
    · intro k L hs hk; rw [q3]; exact hdec2 k L hs hk
  · refine ⟨⟨r', hlev2, hleaf2, Or.inr ⟨1, one_pos, fun _ => rfl, ?_⟩⟩, ?_, hpot2, hdec2⟩
    · intro p hp
      rw [hsame2.leaves] at hp
      apply (hvis p hp).2
      rcases g.cache with h0 | ⟨s, _, hs1, hs2⟩
      · right
        obtain ⟨hl0, _⟩ := h0.root_leaf
        have hsl : sortedLeaves S.T = [0] := by
          rw [hl0] at hperm
          exact List.perm_singleton.1 hperm
        rw [hsl] at hx
        rcases h0.expandNodes_root hx with ⟨rfl, rfl⟩ | ⟨n, hn, _, rfl, rfl, _⟩
        · rw [hl0] at hp; exact hp
        · have := ((h0.children hn).1 p).1 hp
          rw [List.mem_range'_1]
          exact this
      · rcases a4 p hp with ⟨g1, g2, g3, g4⟩ | ⟨g1, _⟩
        · left
          have := hs2 p g1
          rw [hs1 hb] at this
          exact this.congr (box_congr g2) g3 g4
        · exact Or.inr g1
    · rw [hsame2.leaves]; exact hlen2

/-- The loop. -/
theorem loop_good {cfg : TPConfig ℝ} {e : ℝ} (he : cfg.essTarget = some e) (h1e : 1 < e) {t : Pt ℝ d → ℝ} {c : Pt ℝ d}
    {R A B m M : ℝ} (kc : Consts t c R A B m M) (nS : ℕ) : ∀ (its : List (TPIter ℝ d)) (S : TPSampler ℝ d),
    (∀ it ∈ its, it.Open ∧ it.late = false) → Good cfg t c R A B S →
    ∃ S' b, loop cfg (fun x => XF.fin (t x)) nS false its S = .ok (S', b) ∧ Good cfg t c R A B S' ∧
      (∀ k, pot k cfg.nMin S'.T ≤ pot k cfg.nMin S.T) ∧
      (∀ k L, Sep d R A B k L → pot k cfg.nMin S'.T = 0 ∨
        S'.T.leaves.length ≤ S.T.leaves.length * (1 + 2 ^ d) ^ pot L cfg.nMin S.T) ∧
      (b = true → nS ≤ S'.T.leaves.length) ∧
      (b = false → S'.T.leaves.length < nS ∧ ∀ k L, Sep d R A B k L → pot k cfg.nMin S'.T = 0 ∨
        its.length ≤ pot L cfg.nMin S.T)
  | [], S, hit, g => by
    obtain ⟨e0, hr⟩ := g.ready.reached
    obtain ⟨out, ho⟩ := getSamples_ok (target := fun x => XF.fin (t x)) e g.ready.hist
    have hlen := (getSamples_leaves hr.wf h1e ho).2
    unfold loop
    simp only [he, ho, bind, Except.bind, pure, Except.pure]
    refine ⟨_, _, rfl, g, fun _ => le_rfl, fun k L _ => Or.inr ?_, ?_, ?_⟩
    · exact Nat.le_mul_of_pos_right _ (by positivity)
    · simp [hlen]
    · simp [hlen]
  | it :: its, S, hit, g => by
    obtain ⟨e0, hr⟩ := g.ready.reached
    obtain ⟨out, ho⟩ := getSamples_ok (target := fun x => XF.fin (t x)) e g.ready.hist
    have hlen := (getSamples_leaves hr.wf h1e ho).2
    obtain ⟨S1, h1, g1, l1, p1, q1⟩ := iterate_good he h1e kc (hit it (by simp)).1 g
    unfold loop
    simp only [he, ho, bind, Except.bind, pure, Except.pure]
    split_ifs with hc
    · rw [h1]
      simp only
      rw [(hit it (by simp)).2]
      obtain ⟨S', b, h2, g2, m2, k2, b2, b3⟩ := loop_good he h1e kc nS its S1 (fun i hi => hit i (by simp [hi])) g1
      refine ⟨S', b, h2, g2, fun k => (m2 k).trans (p1 k), ?_, b2, ?_⟩
      · intro k L hs
        by_cases hk : pot k cfg.nMin S.T = 0
        · left
          have := m2 k
          have := p1 k
          omega
        · rcases k2 k L hs with h | h
          · exact Or.inl h
          · right
            have hq := q1 k L hs (by omega)
            calc S'.T.leaves.length ≤ S1.T.leaves.length * (1 + 2 ^ d) ^ pot L cfg.nMin S1.T := h
              _ ≤ S.T.leaves.length * (1 + 2 ^ d) * (1 + 2 ^ d) ^ pot L cfg.nMin S1.T := Nat.mul_le_mul_right _ l1
              _ = S.T.leaves.length * (1 + 2 ^ d) ^ (pot L cfg.nMin S1.T + 1) := by rw [pow_succ]; ring
              _ ≤ _ := Nat.mul_le_mul_left _ (Nat.pow_le_pow_right (by positivity) hq)
      · intro hb
        obtain ⟨c1, c2⟩ := b3 hb
        refine ⟨c1, ?_⟩
        intro k L hs
        by_cases hk : pot k cfg.nMin S.T = 0
        · left
          have := m2 k
          have := p1 k
          omega
        · rcases c2 k L hs with h | h
          · exact Or.inl h
          · right
            have hq := q1 k L hs (by omega)
            simp only [List.length_cons]
            omega
    · refine ⟨_, _, rfl, g, fun _ => le_rfl, fun k L _ => Or.inr ?_, ?_, by simp⟩
      · exact Nat.le_mul_of_pos_right _ (by positivity)
      · intro _
        simp only [and_true, not_lt] at hc
        omega

end TPSampler
end Verif
