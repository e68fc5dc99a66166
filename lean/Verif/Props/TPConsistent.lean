import Verif.Proof.TPConvLoop
import Verif.Spec.AISRun

/-!
# Property C117: the tree pyramid sampler is consistent
-/

set_option linter.unusedSectionVars false
set_option autoImplicit false

namespace Verif

open MeasureTheory TPTree

variable {d : ℕ}

namespace TPSampler

/-- The invariant holds once the root has its first sample. -/
theorem initRoot_good (cfg : TPConfig ℝ) {t : Pt ℝ d → ℝ} {c : Pt ℝ d} {R A B m M : ℝ} (kc : Consts t c R A B m M)
    {S : TPSampler ℝ d} (hb : Blank c R S) (hlev : Leveled R S.T) {u : Pt ℝ d} (hu : ∀ i, 0 < u i ∧ u i < 1) :
    ∃ S', initRoot (fun x => XF.fin (t x)) u S = .ok S' ∧ Good cfg t c R A B S' ∧ S'.T.leaves.length = 1 ∧
      ∀ L, pot L cfg.nMin S'.T ≤ need (2 ^ d) cfg.nMin L + cfg.nMin := by
  have hu' : ∀ i, 0 ≤ u i ∧ u i < 1 := fun i => ⟨(hu i).1.le, (hu i).2⟩
  obtain ⟨S', h', r'⟩ := initRoot_spec (target := fun x => XF.fin (t x)) kc.R0 hu' (Or.inl hb)
  have r0 := hb.reached
  obtain ⟨hl0, _⟩ := r0.root_leaf
  obtain ⟨root, hroot, h1, h2, h3⟩ := hb.root
  obtain ⟨Sv, hv, _⟩ := visit_spec (target := fun x => XF.fin (t x)) kc.R0 r0 (draw := fun _ => u) (fun _ => hu') (p := 0)
    (by rw [hl0]; simp) (Or.inl ⟨root, hroot, h1, h2⟩)
  obtain ⟨l1, _⟩ := visit_ok kc r0 (draw := fun _ => u) (fun _ => hu) (p := 0) (by rw [hl0]; simp)
    (Or.inr ⟨root, hroot, h1, h2⟩) hv
  obtain ⟨_, _, hs, _⟩ := visit_full r0.wf hv
  have hT : S'.T = Sv.T.selfNormalize := by
    unfold initRoot at h'
    unfold visit at hv
    simp only [hroot, h2, h3, and_self, if_true, bind, Except.bind, pure, Except.pure] at h' hv
    cases g1 : S.T.sampleNode 0 (root.sampler.sample1 u) with
    | error e => simp [g1] at h'
    | ok T1 =>
      rw [g1] at h' hv
      simp only at h' hv
      cases g2 : T1.weighNode 0 (fun x => XF.fin (t x)) root.sampler.prob1 with
      | error e => simp [g2] at h'
      | ok T2 =>
        rw [g2] at h' hv
        simp only [Except.ok.injEq] at h' hv
        rw [updateModel_tree h', ← hv]
  have rv := r0.same hs
  have hs2 := selfNormalize_same rv.wf
  have r2 : Reached c R S'.T 0 := by rw [hT]; exact rv.same hs2
  have hl2 : S'.T.leaves = [0] := r2.root_leaf.1
  have hlev2 : Leveled R S'.T := by rw [hT]; exact (hlev.same hs).same hs2
  refine ⟨S', h', ⟨r', hlev2, ?_, Or.inl r2⟩, by rw [hl2]; rfl, ?_⟩
  · intro p hp
    rw [hl2, List.mem_singleton] at hp
    subst hp
    rw [hT]
    exact l1.congr (by rw [selfNormalize_nodes])
  · intro L
    obtain ⟨n, hn, _, _, hn0⟩ := r2.root
    unfold pot
    rw [hl2]
    simp only [List.toFinset_cons, List.toFinset_nil, insert_empty_eq, Finset.sum_singleton, hn]
    have := work_le L cfg.nMin n
    rw [hn0] at this
    exact this

/-- The leaves are many when they are all deep. -/
theorem leaves_many (hd : 0 < d) {c : Pt ℝ d} {R : ℝ} (hR : 0 < R) {T : TPTree ℝ d} {e : ℕ} (r : Reached c R T e) {k : ℕ}
    (h : ∀ p ∈ T.leaves, (T.box p).2 ≤ R / 2 ^ k) : k ≤ T.leaves.length := by
  have hv := (r.tiles hR.le).vol
  unfold leafBoxes at hv
  rw [List.map_map] at hv
  have hv' : (T.leaves.map fun p => (2 * (T.box p).2) ^ d).sum = (2 * R) ^ d := hv
  have hle : (T.leaves.map fun p => (2 * (T.box p).2) ^ d).sum ≤ (2 * (R / 2 ^ k)) ^ d * (T.leaves.map fun _ => (1 : ℝ)).sum := by
    refine (sum_map_bounds (lo := 0) _ _ _ ?_).2
    intro p hp
    obtain ⟨hp0, _⟩ := r.box_cube hR hp
    refine ⟨by rw [zero_mul]; positivity, ?_⟩
    rw [mul_one]
    exact pow_le_pow_left₀ (by positivity) (by have := h p hp; linarith) d
  rw [hv', List.map_const', List.sum_replicate, nsmul_eq_mul, mul_one] at hle
  have h2 : (2 * (R / 2 ^ k)) ^ d = (2 * R) ^ d / (2 ^ k) ^ d := by
    rw [← div_pow]; congr 1; ring
  rw [h2, div_mul_eq_mul_div, le_div_iff₀ (by positivity)] at hle
  have hVp : 0 < (2 * R) ^ d := by positivity
  have h3 : (2 ^ k : ℝ) ^ d ≤ T.leaves.length := by
    by_contra h4
    push Not at h4
    nlinarith
  have h5 : (2 : ℝ) ^ k ≤ (2 ^ k) ^ d := le_self_pow₀ (one_le_pow₀ (by norm_num)) hd.ne'
  have h6 : k < 2 ^ k := Nat.lt_two_pow_self
  have h7 : ((2 ^ k : ℕ) : ℝ) ≤ T.leaves.length := by push_cast; linarith
  have h8 : 2 ^ k ≤ T.leaves.length := by exact_mod_cast h7
  omega

theorem pot_zero {k m : ℕ} {R : ℝ} (hR : 0 < R) {T : TPTree ℝ d} (I : WF T) (hlev : Leveled R T) (h : pot k m T = 0) :
    ∀ p ∈ T.leaves, (T.box p).2 ≤ R / 2 ^ k := by
  intro p hp
  obtain ⟨n, hn, _⟩ := I.leaf_node hp
  have hk : k ≤ n.level := by
    by_contra hlt
    have := pot_pos (m := m) hp hn (not_le.1 hlt)
    omega
  rw [box_eq hn]
  simp only
  rw [hlev n (List.mem_iff_getElem?.2 ⟨p, hn⟩)]
  exact div_le_div_of_nonneg_left hR.le (by positivity) (pow_le_pow_right₀ (by norm_num) hk)

end TPSampler

/-- Weighted mean over the leaves. -/
theorem meanOver_leaves (f : Pt ℝ d → ℝ) {T : TPTree ℝ d} (I : WF T) (pt : ℕ → Pt ℝ d) (w : ℕ → ℝ)
    (h1 : ∀ p ∈ T.leaves, T.samples[p]? = some (pt p)) (h2 : ∀ p ∈ T.leaves, T.weights[p]? = some (XF.fin (w p))) :
    meanOver f (maskSelect T.leavesIdx T.samples, maskSelect T.leavesIdx T.weights)
      = XF.fin (T.leaves.map fun p => f (pt p) * w p).sum := by
  unfold meanOver
  simp only
  rw [zipWith_maskSelect _ _ _ _ (by rw [I.lenS, I.lenW])]
  have := I.maskSelect_perm (List.zipWith (fun x w => XF.fin (f x) * w) T.samples T.weights)
    (by rw [List.length_zipWith, I.lenS, I.lenW, min_self]) (fun p => XF.fin (f (pt p) * w p)) (by
      intro p hp
      rw [List.getElem?_zipWith, h1 p hp, h2 p hp]
      simp)
  rw [this.sum_eq, ← XF.sum_map_fin, List.map_map]
  rfl

theorem div_near {a b : ℝ} (hb : b ≠ 0) {ε : ℝ} (hε : 0 < ε) : ∃ δ > 0, ∀ x y, |x - a| ≤ δ → |y - b| ≤ δ → |x / y - a / b| < ε := by
  have hc : ContinuousAt (fun p : ℝ × ℝ => p.1 / p.2) (a, b) := continuousAt_fst.div continuousAt_snd hb
  obtain ⟨δ, hδ, h⟩ := Metric.continuousAt_iff.1 hc ε hε
  refine ⟨δ / 2, by positivity, ?_⟩
  intro x y hx hy
  have := h (x := (x, y)) (by
    rw [Prod.dist_eq, Real.dist_eq, Real.dist_eq]
    exact lt_of_le_of_lt (max_le hx hy) (by linarith))
  rwa [Real.dist_eq] at this

/-- **C117** A new (or reset) tree pyramid sampler (simple method, haar kernel, ESS target above 1, any minimum number of
samples per leaf, any parallelism, with or without leaf resampling) on a target that is continuous and positive on its
root cube: whatever the generator delivers in `(0, 1)`, a call for enough samples returns after finitely many iterations
and the weighted mean of any continuous function over the returned sample is as close as wanted to the expectation
under the target. -/
theorem C117_consistent {dmin dmax : Pt ℝ d} (hlt : ∀ i, dmin i < dmax i) {R : ℝ}
    (hR : IsGreatest (Set.range fun i => (dmax i - dmin i) / 2) R) (cfg : TPConfig ℝ) {e : ℝ}
    (he : cfg.essTarget = some e) (h1e : 1 < e) {S0 : TPSampler ℝ d} (h0 : TPSampler.new dmin dmax = .ok S0)
    (t f : Pt ℝ d → ℝ) (ht : ContinuousOn t (closedCube (fun i => (dmin i + dmax i) / 2) R))
    (hpos : ∀ x ∈ closedCube (fun i => (dmin i + dmax i) / 2) R, 0 < t x)
    (hf : ContinuousOn f (closedCube (fun i => (dmin i + dmax i) / 2) R)) {ε : ℝ} (hε : 0 < ε) :
    ∃ N, ∀ n ≥ N, ∃ k, ∀ call : TPCall ℝ d, call.n = n → call.OpenOnTime → k ≤ call.its.length →
      ∃ S' xs ws v, TPSampler.importanceSampleSimple cfg (fun x => XF.fin (t x)) call.n call.u0 call.its S0
          = .ok (S', some (xs, ws)) ∧
        n ≤ ws.length ∧ xs.length = ws.length ∧ (∀ x ∈ xs, x ∈ closedCube (fun i => (dmin i + dmax i) / 2) R) ∧
        meanOver f (xs, ws) = XF.fin v ∧
        |v - (∫ x in closedCube (fun i => (dmin i + dmax i) / 2) R, f x * t x) /
          ∫ x in closedCube (fun i => (dmin i + dmax i) / 2) R, t x| < ε := by
  set c : Pt ℝ d := fun i => (dmin i + dmax i) / 2 with hc
  obtain ⟨hR0, hblank, hlev0⟩ := TPSampler.new_root hlt h0 hR
  have hd : 0 < d := by
    obtain ⟨⟨i, _⟩, _⟩ := hR
    exact i.pos
  obtain ⟨A, B, m, M, kc⟩ := exists_consts hR0 ht hpos
  -- the integral of the target is positive
  have hcomp : IsCompact (closedCube c R) := isCompact_Icc
  have hItpos : ∫ x in closedCube c R, t x ≠ 0 := by
    obtain ⟨η, hη, hr⟩ := riemann hR0.le ht (δ := m * (2 * R) ^ d / 2) (by have := kc.m0; positivity)
    have hint : IntegrableOn t (closedCube c R) := ht.integrableOn_compact hcomp
    have hvol : (volume : Measure (Pt ℝ d)).real (closedCube c R) = (2 * R) ^ d := by
      have : volume (closedCube c R) = volume (hbox (c, R)) :=
        (measure_congr (Measure.univ_pi_Ico_ae_eq_Icc (μ := fun _ : Fin d => (volume : Measure ℝ)))).symm
      unfold Measure.real
      rw [this, volume_hbox hR0.le, ENNReal.toReal_ofReal (by positivity)]
    have h1 : ∫ _ in closedCube c R, m ≤ ∫ x in closedCube c R, t x := by
      apply setIntegral_mono_on (integrableOn_const hcomp.measure_lt_top.ne) hint measurableSet_Icc
      intro x hx
      exact (kc.tm x hx).1
    rw [setIntegral_const, hvol, smul_eq_mul] at h1
    have : 0 < (2 * R) ^ d * m := by have := kc.m0; positivity
    linarith
  obtain ⟨δ, hδ, hdiv⟩ := div_near (a := ∫ x in closedCube c R, f x * t x) hItpos hε
  obtain ⟨η1, hη1, hr1⟩ := riemann hR0.le (hf.mul ht) hδ
  obtain ⟨η2, hη2, hr2⟩ := riemann hR0.le ht hδ
  -- depth that is fine enough
  obtain ⟨k, hk⟩ : ∃ k : ℕ, R / 2 ^ k ≤ min η1 η2 := by
    obtain ⟨k, hk⟩ := exists_nat_gt (R / min η1 η2)
    have hmin : 0 < min η1 η2 := lt_min hη1 hη2
    refine ⟨k, ?_⟩
    rw [div_le_iff₀ (by positivity)]
    rw [div_lt_iff₀ hmin] at hk
    have h2 : (k : ℝ) ≤ 2 ^ k := by exact_mod_cast (Nat.lt_two_pow_self (n := k)).le
    nlinarith
  obtain ⟨L, hL⟩ := TPSampler.exists_sep (B := B) hd hR0 kc.A0 k
  refine ⟨max 2 ((1 + 2 ^ d) ^ (need (2 ^ d) cfg.nMin L + cfg.nMin) + 1), ?_⟩
  intro n hn
  obtain ⟨L', hL'⟩ := TPSampler.exists_sep (B := B) hd hR0 kc.A0 n
  refine ⟨need (2 ^ d) cfg.nMin L' + cfg.nMin + 1, ?_⟩
  intro call hcn hopen hlen
  obtain ⟨S1, i1, g1, l1, q1⟩ := TPSampler.initRoot_good cfg kc hblank hlev0 hopen.1
  obtain ⟨S2, b, i2, g2, _, p2, b2, b3⟩ := TPSampler.loop_good he h1e kc call.n call.its S1 hopen.2 g1
  obtain ⟨e2, r2⟩ := g2.ready.reached
  have hb : b = true := by
    by_contra hb
    obtain ⟨c1, c2⟩ := b3 (by simpa using hb)
    rcases c2 n L' hL' with h | h
    · have := TPSampler.leaves_many hd hR0 r2 (TPSampler.pot_zero hR0 r2.wf g2.lev h)
      omega
    · have := q1 L'
      omega
  subst hb
  have hleaves := b2 rfl
  rw [hcn] at hleaves
  have hpot : pot k cfg.nMin S2.T = 0 := by
    rcases p2 k L hL with h | h
    · exact h
    · exfalso
      rw [l1, one_mul] at h
      have h3 : (1 + 2 ^ d) ^ pot L cfg.nMin S1.T ≤ (1 + 2 ^ d) ^ (need (2 ^ d) cfg.nMin L + cfg.nMin) :=
        Nat.pow_le_pow_right (by positivity) (q1 L)
      have h4 := (le_max_right _ _).trans hn
      omega
  have hrad := TPSampler.pot_zero hR0 r2.wf g2.lev hpot
  obtain ⟨s, hs0, _, hcache⟩ : ∃ s > 0, (cfg.leafResampling = false → s = 1) ∧ ∀ p ∈ S2.T.leaves, CacheOK t s S2.T p := by
    rcases g2.cache with h | h
    · exfalso
      have h5 := h.nLeaves
      have h6 := (le_max_left _ _).trans hn
      omega
    · exact h
  obtain ⟨S3, u1, r3, u3, _⟩ := TPSampler.updateModel_spec g2.ready
  obtain ⟨pt, hpt⟩ := CacheOK.normalize_full kc hs0 r2 hcache
  have same := selfNormalize_same r2.wf
  set Q := (S2.T.leaves.map fun p => t (pt p) * (2 * (S2.T.box p).2) ^ d).sum with hQ
  have hI3 : WF S3.T := by rw [u3]; exact same.inv r2.wf
  have hlv : S3.T.leaves = S2.T.leaves := by rw [u3, same.leaves]
  have hmean := meanOver_leaves f hI3 pt (fun p => t (pt p) * (2 * (S2.T.box p).2) ^ d / Q)
    (fun p hp => by rw [u3]; exact (hpt p (by rw [← hlv]; exact hp)).2.1)
    (fun p hp => by rw [u3]; exact (hpt p (by rw [← hlv]; exact hp)).2.2)
  have hget : S3.T.getSamples cfg.essTarget
      = .ok (maskSelect S3.T.leavesIdx S3.T.samples, maskSelect S3.T.leavesIdx S3.T.weights) := by
    rw [he]
    unfold getSamples
    simp only [h1e, if_true]
  have hgl := getSamples_leaves hI3 h1e (by rw [← he]; exact hget)
  refine ⟨S3, maskSelect S3.T.leavesIdx S3.T.samples, maskSelect S3.T.leavesIdx S3.T.weights,
    (S2.T.leaves.map fun p => f (pt p) * t (pt p) * (2 * (S2.T.box p).2) ^ d).sum / Q, ?_, ?_, ?_, ?_, ?_, ?_⟩
  · unfold TPSampler.importanceSampleSimple
    simp [i1, i2, u1, hget, bind, Except.bind, pure, Except.pure]
  · rw [hgl.2, hlv]; exact hleaves
  · rw [hgl.1, hgl.2]
  · intro x hx
    have hperm := hI3.maskSelect_perm S3.T.samples hI3.lenS pt
      (fun p hp => by rw [u3]; exact (hpt p (by rw [← hlv]; exact hp)).2.1)
    obtain ⟨p, hp, rfl⟩ := List.mem_map.1 (hperm.mem_iff.1 hx)
    rw [hlv] at hp
    exact (r2.box_cube hR0 hp).2 (hpt p hp).1
  · rw [hmean, hlv]
    congr 1
    rw [div_eq_mul_inv, ← List.sum_map_mul_right]
    congr 1
    apply List.map_congr_left
    intro p _
    ring
  · have htile := r2.tiles hR0.le
    unfold leafBoxes at htile
    apply hdiv
    · exact hr1 S2.T.leaves S2.T.box pt htile (fun p hp => (hrad p hp).trans (hk.trans (min_le_left _ _)))
        (fun p hp => (hpt p hp).1)
    · exact hr2 S2.T.leaves S2.T.box pt htile (fun p hp => (hrad p hp).trans (hk.trans (min_le_right _ _)))
        (fun p hp => (hpt p hp).1)

/-- C117 applied: the mean of `x` under the density proportional to `1 + x` on `[0, 1]`. -/
example (cfg : TPConfig ℝ) (he : cfg.essTarget = some 2) {S0 : TPSampler ℝ 1}
    (h0 : TPSampler.new (fun _ => 0) (fun _ => 1) = .ok S0) :
    ∃ N, ∀ n ≥ N, ∃ k, ∀ call : TPCall ℝ 1, call.n = n → call.OpenOnTime → k ≤ call.its.length →
      ∃ S' xs ws v, TPSampler.importanceSampleSimple cfg (fun x => XF.fin (1 + x 0)) call.n call.u0 call.its S0
          = .ok (S', some (xs, ws)) ∧ meanOver (fun x => x 0) (xs, ws) = XF.fin v ∧
        |v - (∫ x in closedCube (fun _ : Fin 1 => (0 + 1) / 2) (1 / 2), x 0 * (1 + x 0)) /
          ∫ x in closedCube (fun _ : Fin 1 => (0 + 1) / 2) (1 / 2), (1 + x 0)| < 1 / 100 := by
  obtain ⟨N, hN⟩ := C117_consistent (dmin := fun _ : Fin 1 => (0 : ℝ)) (dmax := fun _ => 1) (fun _ => one_pos) (R := 1 / 2)
    ⟨⟨0, by norm_num⟩, by rintro _ ⟨i, rfl⟩; norm_num⟩ cfg he (by norm_num) h0 (fun x => 1 + x 0) (fun x => x 0)
    (by fun_prop) (by
      intro x hx
      have := (mem_closedCube.1 hx 0).1
      norm_num at this
      linarith) (by fun_prop) (ε := 1 / 100) (by norm_num)
  refine ⟨N, fun n hn => ?_⟩
  obtain ⟨k, hk⟩ := hN n hn
  refine ⟨k, fun call h1 h2 h3 => ?_⟩
  obtain ⟨S', xs, ws, v, a, _, _, _, b, e⟩ := hk call h1 h2 h3
  exact ⟨S', xs, ws, v, a, b, e⟩

/-- The sampler exists and calls with any number of iterations exist. -/
example (n k : ℕ) : (∃ S0 : TPSampler ℝ 1, TPSampler.new (fun _ => 0) (fun _ => 1) = .ok S0) ∧
    ∃ call : TPCall ℝ 1, call.n = n ∧ call.OpenOnTime ∧ k ≤ call.its.length := by
  constructor
  · obtain ⟨T, hT⟩ := init_ok (fun _ : Fin 1 => (0 : ℝ)) (fun _ => 1) one_pos
    exact ⟨_, by unfold TPSampler.new; rw [hT]; rfl⟩
  · refine ⟨⟨n, fun _ => 1 / 2, List.replicate k ⟨fun _ _ => 1 / 2, fun _ _ => 1 / 2, false⟩⟩, rfl, ⟨?_, ?_⟩, by simp⟩
    · intro i; norm_num
    · intro it hit
      obtain ⟨_, rfl⟩ := List.mem_replicate.1 hit
      refine ⟨⟨fun p i => ?_, fun p i => ?_⟩, rfl⟩ <;> norm_num

end Verif
