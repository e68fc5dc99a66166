import Verif.Proof.MHSequence
import Verif.Props.MHRefuted
import Mathlib.MeasureTheory.Integral.Bochner.ContinuousLinearMap

/-!
# Metropolis-Hastings: C131, what the averages over the samples converge to
-/

set_option linter.unusedSectionVars false
set_option autoImplicit false

namespace Verif
namespace MHast

open MeasureTheory Set Filter Topology Adaptive

variable {d : ℕ} {lo hi : Fin d → ℝ} {p q : (Fin d → ℝ) → ℝ} {ε M : ℝ}

theorem runCfg_chain (m b r : ℕ) : chain (runCfg lo hi p q m b r) = chain (densCfg lo hi p q) := rfl

/-! ### The run does not get stuck -/

/-- An event that has probability zero from every state does not happen along the run. -/
theorem ae_never {Ξ S : Type*} [MeasurableSpace Ξ] [MeasurableSpace S] (P : Measure Ξ) [IsProbabilityMeasure P]
    {step : S → Ξ → S} (hs : Measurable (Function.uncurry step)) (s₀ : S) {bad : S → Ξ → Prop}
    (hb : MeasurableSet {t : S × Ξ | bad t.1 t.2}) (h0 : ∀ s, P {ξ | bad s ξ} = 0) :
    ∀ᵐ ω ∂(Measure.infinitePi fun _ : ℕ => P), ∀ n, ¬ bad (st step s₀ ω n) (ω n) := by
  refine ae_all_iff.2 fun n => ?_
  have hm := st_measurable hs s₀ n
  have hpair : Measurable fun ω : ℕ → Ξ => (st step s₀ ω n, ω n) := hm.prodMk (measurable_pi_apply n)
  rw [ae_iff]
  have e : {ω : ℕ → Ξ | ¬ ¬ bad (st step s₀ ω n) (ω n)} =
      (fun ω => (st step s₀ ω n, ω n)) ⁻¹' {t : S × Ξ | bad t.1 t.2} := by
    ext ω
    simp
  rw [e, ← Measure.map_apply hpair hb, law_round P hs s₀ n, Measure.prod_apply hb]
  have h1 : ∀ s, P (Prod.mk s ⁻¹' {t : S × Ξ | bad t.1 t.2}) = 0 := h0
  simp only [h1, lintegral_zero]

/-- All tries are rejected. -/
def NoAccept (c : Cfg d) (x : Fin d → ℝ) (ξ : ℕ → (Fin d → ℝ) × ℝ) : Prop :=
  ∀ t, accepts c (clip c.lo c.hi x) (propose c (clip c.lo c.hi x) (ξ t).1) (ξ t).2 = false

theorem noAccept_measurable (hp : IsDensity p) (hq : IsDensity q) :
    MeasurableSet {t : (Fin d → ℝ) × (ℕ → (Fin d → ℝ) × ℝ) | NoAccept (densCfg lo hi p q) t.1 t.2} := by
  have e : {t : (Fin d → ℝ) × (ℕ → (Fin d → ℝ) × ℝ) | NoAccept (densCfg lo hi p q) t.1 t.2} =
      ⋂ k, ((fun t : (Fin d → ℝ) × (ℕ → (Fin d → ℝ) × ℝ) => (clip lo hi t.1, t.2 k)) ⁻¹'
        {t : (Fin d → ℝ) × (Fin d → ℝ) × ℝ |
          accepts (densCfg lo hi p q) t.1 (propose (densCfg lo hi p q) t.1 t.2.1) t.2.2 = true ∧
            propose (densCfg lo hi p q) t.1 t.2.1 ∈ univ})ᶜ := by
    ext t
    simp only [NoAccept, mem_setOf_eq, mem_iInter, mem_compl_iff, mem_preimage, mem_univ, and_true, Bool.not_eq_true]
    rfl
  rw [e]
  refine MeasurableSet.iInter fun k => (MeasurableSet.compl ?_)
  have hm : Measurable fun t : (Fin d → ℝ) × (ℕ → (Fin d → ℝ) × ℝ) => (clip lo hi t.1, t.2 k) :=
    (clip_measurable.comp measurable_fst).prodMk ((measurable_pi_apply k).comp measurable_snd)
  exact hm (acc_measurable hp hq MeasurableSet.univ)

theorem noAccept_null (hp : IsDensity p) (hq : IsDensity q) (h : Covers lo hi p q ε M) (hbox : ∀ i, lo i ≤ hi i)
    (x : Fin d → ℝ) : triesLaw q {ξ | NoAccept (densCfg lo hi p q) x ξ} = 0 := by
  haveI := lawProb hq
  set y := clip lo hi x with hy
  have hR : MeasurableSet {t : (Fin d → ℝ) × ℝ | accepts (densCfg lo hi p q) y (propose (densCfg lo hi p q) y t.1) t.2 = true ∧
      propose (densCfg lo hi p q) y t.1 ∈ (univ : Set (Fin d → ℝ))} := acc_section_measurable hp hq y MeasurableSet.univ
  have hle : ∀ k : ℕ, triesLaw q {ξ | NoAccept (densCfg lo hi p q) x ξ} ≤
      (1 - acceptProb (densCfg lo hi p q) q y univ) ^ k := by
    intro k
    have hsub : {ξ | NoAccept (densCfg lo hi p q) x ξ} ⊆ Set.pi (Finset.range k) fun _ =>
        {t : (Fin d → ℝ) × ℝ | accepts (densCfg lo hi p q) y (propose (densCfg lo hi p q) y t.1) t.2 = true ∧
          propose (densCfg lo hi p q) y t.1 ∈ (univ : Set (Fin d → ℝ))}ᶜ := by
      rintro ξ hξ i -
      rintro ⟨h1, -⟩
      have h2 : accepts (densCfg lo hi p q) y (propose (densCfg lo hi p q) y (ξ i).1) (ξ i).2 = false := hξ i
      rw [h2] at h1
      cases h1
    refine (measure_mono hsub).trans (le_of_eq ?_)
    unfold triesLaw
    rw [Measure.infinitePi_pi _ fun _ _ => hR.compl, Finset.prod_const, Finset.card_range]
    congr 1
    exact prob_compl_eq_one_sub hR
  have hlt : 1 - acceptProb (densCfg lo hi p q) q y univ < 1 :=
    ENNReal.sub_lt_self ENNReal.one_ne_top one_ne_zero (accept_ne_zero hp hq h (clip_box hbox x))
  have hlim := ENNReal.tendsto_pow_atTop_nhds_zero_of_lt_one hlt
  exact le_antisymm (ge_of_tendsto' hlim hle) zero_le

/-! ### The limit -/

theorem accLaw_mean (hp : IsDensity p) (hq : IsDensity q) (f : (Fin d → ℝ) → ℝ) :
    ∫ x, f x ∂accLaw lo hi p q = acceptMean lo hi p q f := by
  have hm : Measurable fun x => ENNReal.ofReal (p x) * acceptProb (densCfg lo hi p q) q x univ :=
    hp.meas.ennreal_ofReal.mul (acceptProb_measurable hp hq MeasurableSet.univ)
  have hfin : ∀ x, ENNReal.ofReal (p x) * acceptProb (densCfg lo hi p q) q x univ < ⊤ := fun x =>
    ENNReal.mul_lt_top ENNReal.ofReal_lt_top (lt_of_le_of_lt (acceptProb_le_one hq x univ) ENNReal.one_lt_top)
  have hto : ∀ x, (ENNReal.ofReal (p x) * acceptProb (densCfg lo hi p q) q x univ).toReal =
      p x * (acceptProb (densCfg lo hi p q) q x univ).toReal := fun x => by
    rw [ENNReal.toReal_mul, ENNReal.toReal_ofReal (hp.nonneg x)]
  have hZ : (∫⁻ x, ENNReal.ofReal (p x) * acceptProb (densCfg lo hi p q) q x univ).toReal =
      ∫ x, p x * (acceptProb (densCfg lo hi p q) q x univ).toReal := by
    rw [← integral_toReal hm.aemeasurable (Eventually.of_forall hfin)]
    simp_rw [hto]
  unfold accLaw acceptMean
  rw [integral_smul_measure, integral_withDensity_eq_integral_toReal_smul hm (Eventually.of_forall hfin), ENNReal.toReal_inv,
    hZ, smul_eq_mul, div_eq_inv_mul]
  congr 1
  refine integral_congr_ae (Eventually.of_forall fun x => ?_)
  simp only [hto, smul_eq_mul]
  ring

/-- Finitely many further terms do not change the limit of averages. -/
theorem average_tail (A : ℝ) (l : ℕ) {g : ℕ → ℝ} {L : ℝ}
    (h : Tendsto (fun n : ℕ => (∑ k ∈ Finset.range n, g k) / n) atTop (𝓝 L)) :
    Tendsto (fun n : ℕ => (A + ∑ k ∈ Finset.range (n - l), g k) / n) atTop (𝓝 L) := by
  have h1 : Tendsto (fun n : ℕ => (A + ∑ k ∈ Finset.range n, g k) / ((n + l : ℕ) : ℝ)) atTop (𝓝 L) := by
    have hA : Tendsto (fun n : ℕ => A / (n : ℝ)) atTop (𝓝 0) := tendsto_const_nhds.div_atTop tendsto_natCast_atTop_atTop
    have hl : Tendsto (fun n : ℕ => (l : ℝ) / (n : ℝ)) atTop (𝓝 0) := tendsto_const_nhds.div_atTop tendsto_natCast_atTop_atTop
    have := (hA.add h).div (hl.const_add 1) (by norm_num)
    rw [zero_add, add_zero, div_one] at this
    refine this.congr' ?_
    filter_upwards [eventually_gt_atTop 0] with n hn
    have hn' : (0 : ℝ) < n := by exact_mod_cast hn
    have h2 : (0 : ℝ) < n + l := by positivity
    simp only [Pi.div_apply]
    push_cast
    field_simp
  have h2 := h1.comp (tendsto_sub_atTop_nat l)
  refine h2.congr' ?_
  filter_upwards [eventually_ge_atTop l] with n hn
  simp only [Function.comp]
  rw [show n - l + l = n by omega]

/-- **C131**, what the samples describe. Bounded target inside the search space, proposal density bounded below on the moves
considered, at least one step between samples, any completed burn in that ends in the search space, any object state: the
averages of every bounded measurable function over the samples returned by `importance_sample` converge almost surely to its
mean under the density proportional to the target *times the probability that a try is accepted*. -/
theorem C131_limit (hp : IsDensity p) (hq : IsDensity q) (h : Covers lo hi p q ε M) {m b r : ℕ} (hm : 0 < m) (hr : 0 < r)
    {burn : ℕ → List (Try d)} (idx : ℕ → ℕ) {S S0 : MH d} (hb : burnIn (runCfg lo hi p q m b r) burn S = .done S0)
    (hx : InBox lo hi S0.cur) {f : (Fin d → ℝ) → ℝ} (hf : Measurable f) {C : ℝ} (hC : ∀ x, |f x| ≤ C) :
    AverageTendsto (runCfg lo hi p q m b r) q burn idx S f (acceptMean lo hi p q f) := by
  haveI := triesLaw_prob hq
  haveI := target_prob hp
  haveI := accLaw_prob hp hq h
  have hbox : ∀ i, lo i ≤ hi i := fun i => (hx i).1.trans (hx i).2
  have hε : 0 < ε / M := div_pos h.pos (h.boundPos hp)
  have hε1 : ε / M ≤ 1 := by
    have h1 := (accept_minor hp hq h hx MeasurableSet.univ).trans (acceptProb_le_one hq _ _)
    rw [measure_univ, mul_one] at h1
    exact ENNReal.ofReal_le_one.1 h1
  have hch := chain_measurable (lo := lo) (hi := hi) hp hq
  obtain ⟨m', rfl⟩ : ∃ m', m = m' + 1 := ⟨m - 1, by omega⟩
  have hstep := st_uncurry_meas hch (m' + 1)
  have hlln := doeblin_slln (Measure.infinitePi fun _ : ℕ => triesLaw q) hε hε1
    (steps_minor (triesLaw q) (chain_minor hp hq h hbox) hch m') hstep
    (steps_invariant (triesLaw q) hch (chain_invariant hp hq h) (m' + 1)) S0.cur hf hC
  have hgood : ∀ᵐ ω ∂(Measure.infinitePi fun _ : ℕ => Measure.infinitePi fun _ : ℕ => triesLaw q), ∀ i,
      ¬ ∃ j, NoAccept (densCfg lo hi p q) (st (chain (densCfg lo hi p q))
        (st (fun y ξ => st (chain (densCfg lo hi p q)) y ξ (m' + 1)) S0.cur ω i) (ω i) j) (ω i j) := by
    refine ae_never (Measure.infinitePi fun _ : ℕ => triesLaw q) hstep S0.cur
      (bad := fun x ξ => ∃ j, NoAccept (densCfg lo hi p q) (st (chain (densCfg lo hi p q)) x ξ j) (ξ j)) ?_ ?_
    · have e : {t : (Fin d → ℝ) × (ℕ → ℕ → (Fin d → ℝ) × ℝ) |
          ∃ j, NoAccept (densCfg lo hi p q) (st (chain (densCfg lo hi p q)) t.1 t.2 j) (t.2 j)} =
          ⋃ j, (fun t : (Fin d → ℝ) × (ℕ → ℕ → (Fin d → ℝ) × ℝ) =>
            (st (chain (densCfg lo hi p q)) t.1 t.2 j, t.2 j)) ⁻¹'
            {t | NoAccept (densCfg lo hi p q) t.1 t.2} := by
        ext t
        simp
      rw [e]
      refine MeasurableSet.iUnion fun j => ?_
      have hmm : Measurable fun t : (Fin d → ℝ) × (ℕ → ℕ → (Fin d → ℝ) × ℝ) =>
          (st (chain (densCfg lo hi p q)) t.1 t.2 j, t.2 j) :=
        (st_uncurry_meas hch j).prodMk ((measurable_pi_apply j).comp measurable_snd)
      exact hmm (noAccept_measurable hp hq)
    · intro x
      have := ae_never (triesLaw q) hch x (noAccept_measurable (lo := lo) (hi := hi) hp hq) (noAccept_null hp hq h hbox)
      rw [ae_iff] at this
      simpa using this
  unfold AverageTendsto
  show ∀ᵐ ω ∂(Measure.infinitePi fun _ : ℕ => Measure.infinitePi fun _ : ℕ => triesLaw q), _
  filter_upwards [hlln, hgood] with ω hω hg
  rw [accLaw_mean hp hq f] at hω
  have hrun := fun n (hn : S.samples.length < n) k => run_seen (c := runCfg lo hi p q (m' + 1) b r) hbox (Nat.succ_pos m') ω k n
    idx hb hx hn
  constructor
  · intro n hn0
    rcases le_or_gt n S.samples.length with hn | hn
    · refine ⟨0, ?_⟩
      have hw : whileOut (fun S : MH d => decide (S.samples.length < n)) Iter.late (body (runCfg lo hi p q (m' + 1) b r)) false
          (scriptOf burn ω 0 n) S = .done S := by
        cases scriptOf burn ω 0 n <;> simp [whileOut, not_lt.2 hn]
      have hne : S.samples ≠ [] := by
        intro h
        rw [h] at hn
        simp only [List.length_nil] at hn
        omega
      unfold importanceSample
      rw [hw]
      have hr' : (runCfg lo hi p q (m' + 1) b r).nKde ≠ 0 := hr.ne'
      simp only [updateModel, hne, if_false, hr']
      exact ⟨_, rfl⟩
    -- enough tries for the steps of the first `n` iterations
    have hk : ∀ i j, ∃ t, accepts (densCfg lo hi p q) (clip lo hi (st (chain (densCfg lo hi p q))
        (visited (runCfg lo hi p q (m' + 1) b r) S0.cur ω i) (ω i) j))
        (propose (densCfg lo hi p q) (clip lo hi (st (chain (densCfg lo hi p q))
          (visited (runCfg lo hi p q (m' + 1) b r) S0.cur ω i) (ω i) j)) (ω i j t).1) (ω i j t).2 = true := by
      intro i j
      by_contra hc
      push Not at hc
      exact hg i ⟨j, fun t => Bool.eq_false_iff.2 (hc t)⟩
    choose t ht using hk
    refine ⟨(Finset.range n).sup fun i => (Finset.range (m' + 1)).sup fun j => t i j + 1, ?_⟩
    refine (hrun n hn _).2 hr fun i hin => ?_
    rintro ⟨j, hj, hrej⟩
    have h1 : t i j < (Finset.range n).sup fun i => (Finset.range (m' + 1)).sup fun j => t i j + 1 := by
      refine lt_of_lt_of_le (Nat.lt_succ_self _) ?_
      refine le_trans ?_ (Finset.le_sup (f := fun i => (Finset.range (m' + 1)).sup fun j => t i j + 1) (Finset.mem_range.2 hin))
      exact Finset.le_sup (f := fun j => t i j + 1) (Finset.mem_range.2 hj)
    have h2 := hrej (t i j) h1
    have h3 := ht i j
    rw [show accepts (densCfg lo hi p q) (clip lo hi (st (chain (densCfg lo hi p q))
        (visited (runCfg lo hi p q (m' + 1) b r) S0.cur ω i) (ω i) j))
        (propose (densCfg lo hi p q) (clip lo hi (st (chain (densCfg lo hi p q))
          (visited (runCfg lo hi p q (m' + 1) b r) S0.cur ω i) (ω i) j)) (ω i j (t i j)).1) (ω i j (t i j)).2 = false from h2] at h3
    cases h3
  · intro δ hδ
    obtain ⟨N, hN⟩ := Metric.tendsto_atTop.1 (average_tail (S.samples.map f).sum S.samples.length hω) δ hδ
    refine ⟨max N (S.samples.length + 1), fun n hn k S' hS' => ?_⟩
    have hn1 : S.samples.length < n := lt_of_lt_of_le (Nat.lt_succ_self _) ((le_max_right _ _).trans hn)
    have hs := (hrun n hn1 k).1 S' hS'
    have h1 := hN n ((le_max_left _ _).trans hn)
    have e : average f S' = ((S.samples.map f).sum + ∑ k ∈ Finset.range (n - S.samples.length),
        f (st (fun y ξ => st (chain (densCfg lo hi p q)) y ξ (m' + 1)) S0.cur ω (k + 1))) / n := by
      unfold average
      rw [hs, List.map_append, List.sum_append, List.map_map, List.length_append, List.length_map, List.length_range,
        show S.samples.length + (n - S.samples.length) = n by omega]
      rfl
    rw [e]
    rwa [Real.dist_eq] at h1

/-- There is at most one limit. -/
theorem averageTendsto_unique (hq : IsDensity q) {c : Cfg d} {burn : ℕ → List (Try d)} {idx : ℕ → ℕ} {S : MH d}
    {f : (Fin d → ℝ) → ℝ} {L L' : ℝ} (h : AverageTendsto c q burn idx S f L) (h' : AverageTendsto c q burn idx S f L') :
    L = L' := by
  haveI := lawProb hq
  haveI : IsProbabilityMeasure (tapeLaw q) := by unfold tapeLaw; infer_instance
  obtain ⟨ω, ⟨h1, h2⟩, -, h3⟩ := (h.and h').exists
  by_contra hne
  have hpos : 0 < |L - L'| / 2 := by
    have := abs_pos.2 (sub_ne_zero.2 hne)
    positivity
  obtain ⟨N, hN⟩ := h2 _ hpos
  obtain ⟨N', hN'⟩ := h3 _ hpos
  obtain ⟨k, S', hS'⟩ := h1 (max N N' + 1) (Nat.succ_pos _)
  have g1 := hN _ ((le_max_left N N').trans (Nat.le_succ _)) k S' hS'
  have g2 := hN' _ ((le_max_right N N').trans (Nat.le_succ _)) k S' hS'
  have : |L - L'| ≤ |average f S' - L| + |average f S' - L'| := by
    have := abs_sub_le L (average f S') L'
    rwa [abs_sub_comm L (average f S')] at this
  linarith

/-! ### C131 -/

/-- Continuous positive proposal densities (Gaussian ones, for instance) are bounded below on the moves considered. -/
theorem covers_of_continuous (hq : Continuous q) (hq0 : ∀ z, 0 < q z) (hM : ∀ x, p x ≤ M)
    (hin : ∀ x, 0 < p x → ∀ i, lo i < x i ∧ x i < hi i) (hbox : ∀ i, lo i ≤ hi i) : ∃ ε, Covers lo hi p q ε M := by
  have hK : IsCompact (Set.Icc (lo - hi) (hi - lo)) := isCompact_Icc
  have hne : (Set.Icc (lo - hi) (hi - lo)).Nonempty :=
    ⟨0, fun i => by simp only [Pi.sub_apply, Pi.zero_apply]; linarith [hbox i],
      fun i => by simp only [Pi.sub_apply, Pi.zero_apply]; linarith [hbox i]⟩
  obtain ⟨z, -, hz⟩ := hK.exists_isMinOn hne hq.continuousOn
  refine ⟨q z, hq0 z, hM, hin, fun x y hx hy => ⟨hz ⟨fun i => ?_, fun i => ?_⟩, hz ⟨fun i => ?_, fun i => ?_⟩⟩⟩ <;>
    simp only [Pi.sub_apply] <;> linarith [(hx i).1, (hx i).2, (hin y hy i).1, (hin y hy i).2]

/-- **C131**, a sufficient condition: the samples describe the target if the probability that a try is accepted is the same
at all points of the target. -/
theorem C131_partial (hp : IsDensity p) (hq : IsDensity q) (h : Covers lo hi p q ε M) {α : ENNReal}
    (hα : ∀ x, 0 < p x → acceptProb (densCfg lo hi p q) q x univ = α) {m b r : ℕ} (hm : 0 < m) (hr : 0 < r)
    {burn : ℕ → List (Try d)} (idx : ℕ → ℕ) {S S0 : MH d} (hb : burnIn (runCfg lo hi p q m b r) burn S = .done S0)
    (hx : InBox lo hi S0.cur) : DescribesTarget lo hi p q m b r burn idx S := by
  rintro f hf ⟨C, hC⟩
  have hlim := C131_limit hp hq h hm hr idx hb hx hf hC
  have hα0 : ∃ x, 0 < p x := by
    by_contra hc
    push Not at hc
    have h0 : ∀ x, p x = 0 := fun x => le_antisymm (hc x) (hp.nonneg x)
    have ht := hp.total
    simp [h0] at ht
  obtain ⟨x₀, hx₀⟩ := hα0
  have hαne : α ≠ 0 := by
    rw [← hα x₀ hx₀]
    exact accept_ne_zero hp hq h fun i => ⟨(h.inside x₀ hx₀ i).1.le, (h.inside x₀ hx₀ i).2.le⟩
  have hαt : α ≠ ⊤ := by
    rw [← hα x₀ hx₀]
    exact ne_top_of_le_ne_top ENNReal.one_ne_top (acceptProb_le_one hq _ _)
  have hαr : α.toReal ≠ 0 := (ENNReal.toReal_pos hαne hαt).ne'
  have e : ∀ x, p x * (acceptProb (densCfg lo hi p q) q x univ).toReal = p x * α.toReal := by
    intro x
    rcases (hp.nonneg x).eq_or_lt with h0 | h0
    · rw [← h0, zero_mul, zero_mul]
    · rw [hα x h0]
  have hone : ∫ x, p x = 1 := by
    rw [integral_eq_lintegral_of_nonneg_ae (Eventually.of_forall hp.nonneg) hp.meas.aestronglyMeasurable, hp.total]
    rfl
  have hL : acceptMean lo hi p q f = ∫ x, f x * p x := by
    unfold acceptMean
    simp_rw [e]
    rw [integral_mul_const, hone, one_mul]
    simp_rw [← mul_assoc]
    rw [integral_mul_const, mul_div_cancel_right₀ _ hαr]
  rwa [hL] at hlim

/-! ### The example of C48 -/

theorem ex_support {x : Fin 1 → ℝ} (h : 0 < exP x) : x ∈ hiSet ∪ loSet := by
  by_contra hc
  simp only [mem_union, not_or] at hc
  rw [exP_out hc.1 hc.2] at h
  exact lt_irrefl _ h

theorem exQ_from_box {x y : Fin 1 → ℝ} (hx : InBox (![-1] : Fin 1 → ℝ) ![3] x) (hy : y ∈ hiSet ∪ loSet) :
    exQ (y - x) = 1/6 ∧ exQ (x - y) = 1/6 := by
  have a := hx 0
  have b := mem_Icc02 hy
  simp only [Matrix.cons_val_zero] at a
  unfold exQ
  constructor
  · rw [indicator_of_mem]
    intro i _
    rw [Subsingleton.elim i 0]
    simp only [Pi.sub_apply, mem_Icc]
    constructor <;> linarith [a.1, a.2, b.1, b.2]
  · rw [indicator_of_mem]
    intro i _
    rw [Subsingleton.elim i 0]
    simp only [Pi.sub_apply, mem_Icc]
    constructor <;> linarith [a.1, a.2, b.1, b.2]

theorem ex_covers : Covers ![-1] ![3] exP exQ (1/6) (2/3) := by
  refine ⟨by norm_num, fun x => ?_, ex_inside, fun x y hx hy => ?_⟩
  · by_cases h1 : x ∈ hiSet
    · rw [exP_hi h1]
    · by_cases h2 : x ∈ loSet
      · rw [exP_lo h2]; norm_num
      · rw [exP_out h1 h2]; norm_num
  · have := exQ_from_box hx (ex_support hy)
    rw [this.1, this.2]
    exact ⟨le_refl _, le_refl _⟩

theorem ex_weight (x : Fin 1 → ℝ) : exP x * (acceptProb (densCfg ![-1] ![3] exP exQ) exQ x univ).toReal =
    hiSet.indicator (fun _ => 1/6) x + loSet.indicator (fun _ => 1/9) x := by
  by_cases hx : x ∈ hiSet ∪ loSet
  · have h := congrArg ENNReal.toReal (ex_mass hx MeasurableSet.univ)
    rw [inter_univ, inter_univ, hiSet_vol, loSet_vol, mul_one, mul_one, ENNReal.toReal_mul,
      ENNReal.toReal_ofReal (exP_density.nonneg x), ENNReal.toReal_add ENNReal.ofReal_ne_top ENNReal.ofReal_ne_top,
      ENNReal.toReal_ofReal (div_nonneg (exP_density.nonneg x) (by norm_num)), ENNReal.toReal_ofReal (by norm_num)] at h
    rw [h]
    rcases hx with hx | hx
    · have h2 : x ∉ loSet := fun h => Set.disjoint_left.1 hilo_disj hx h
      rw [exP_hi hx, indicator_of_mem hx, indicator_of_notMem h2]
      norm_num
    · have h2 : x ∉ hiSet := fun h => Set.disjoint_left.1 hilo_disj h hx
      rw [exP_lo hx, indicator_of_mem hx, indicator_of_notMem h2]
      norm_num
  · simp only [mem_union, not_or] at hx
    rw [exP_out hx.1 hx.2, indicator_of_notMem hx.1, indicator_of_notMem hx.2]
    simp

theorem hiSet_real : (volume : Measure (Fin 1 → ℝ)).real hiSet = 1 := by simp [Measure.real, hiSet_vol]
theorem loSet_real : (volume : Measure (Fin 1 → ℝ)).real loSet = 1 := by simp [Measure.real, loSet_vol]

theorem ind_integrable {A : Set (Fin 1 → ℝ)} (hA : MeasurableSet A) (hv : volume A = 1) (a : ℝ) :
    Integrable (A.indicator fun _ => a) := by
  rw [integrable_indicator_iff hA]
  exact integrableOn_const (by rw [hv]; exact ENNReal.one_ne_top)

/-- Two fifths of the samples fall where a third of the target is. -/
theorem ex_acceptMean : acceptMean ![-1] ![3] exP exQ (loSet.indicator fun _ => 1) = 2/5 := by
  have h1 : ∫ x, exP x * (acceptProb (densCfg ![-1] ![3] exP exQ) exQ x univ).toReal = 5/18 := by
    simp_rw [ex_weight]
    rw [integral_add (ind_integrable hiSet_meas hiSet_vol _) (ind_integrable loSet_meas loSet_vol _),
      integral_indicator_const _ hiSet_meas, integral_indicator_const _ loSet_meas, hiSet_real, loSet_real]
    norm_num
  have h2 : ∫ x, loSet.indicator (fun _ => (1 : ℝ)) x * (exP x * (acceptProb (densCfg ![-1] ![3] exP exQ) exQ x univ).toReal) = 1/9 := by
    have e : ∀ x, loSet.indicator (fun _ => (1 : ℝ)) x * (exP x * (acceptProb (densCfg ![-1] ![3] exP exQ) exQ x univ).toReal) =
        loSet.indicator (fun _ => (1/9 : ℝ)) x := by
      intro x
      rw [ex_weight]
      by_cases h : x ∈ loSet
      · have h2 : x ∉ hiSet := fun h' => Set.disjoint_left.1 hilo_disj h' h
        simp [h, h2]
      · simp [h]
    simp_rw [e]
    rw [integral_indicator_const _ loSet_meas, loSet_real]
    norm_num
  unfold acceptMean
  rw [h1, h2]
  norm_num

theorem ex_target_mean : ∫ x, loSet.indicator (fun _ => (1 : ℝ)) x * exP x = 1/3 := by
  have e : ∀ x, loSet.indicator (fun _ => (1 : ℝ)) x * exP x = loSet.indicator (fun _ => (1/3 : ℝ)) x := by
    intro x
    by_cases h : x ∈ loSet
    · simp [h, exP_lo h]
    · simp [h]
  simp_rw [e]
  rw [integral_indicator_const _ loSet_meas, loSet_real]
  norm_num

theorem ex_start (m b r : ℕ) (x : Fin 1 → ℝ) : burnIn (runCfg ![-1] ![3] exP exQ m 0 r) (fun _ => []) (init x) =
    .done { init x with isInit := true } := rfl

/-- **C131** is violated: for the target of C48 (density 2/3 on the unit interval, 1/3 on the next) almost surely two fifths,
not a third, of the samples of a long run fall in the second interval. One step between samples, no burn in, a new object
started in the search space. -/
theorem C131_refuted : ∃ (lo hi : Fin 1 → ℝ) (p q : (Fin 1 → ℝ) → ℝ) (x₀ : Fin 1 → ℝ) (B : Set (Fin 1 → ℝ)), IsDensity p ∧
    IsDensity q ∧ Covers lo hi p q (1/6) (2/3) ∧ InBox lo hi x₀ ∧
    AverageTendsto (runCfg lo hi p q 1 0 1) q (fun _ => []) (fun _ => 0) (init x₀) (B.indicator fun _ => 1) (2/5) ∧
    ∫ x, B.indicator (fun _ => (1 : ℝ)) x * p x = 1/3 ∧
    ¬ DescribesTarget lo hi p q 1 0 1 (fun _ => []) (fun _ => 0) (init x₀) := by
  have hm : Measurable (loSet.indicator fun _ => (1 : ℝ)) := measurable_const.indicator loSet_meas
  have hC : ∀ x, |loSet.indicator (fun _ => (1 : ℝ)) x| ≤ 1 := by
    intro x
    by_cases h : x ∈ loSet <;> simp [h]
  have h0 : InBox (![-1] : Fin 1 → ℝ) ![3] ![0] := by
    intro i
    rw [Subsingleton.elim i 0]
    simp
  have hlim := C131_limit exP_density exQ_density ex_covers (m := 1) (b := 0) (r := 1) one_pos one_pos (fun _ => 0)
    (S := init ![0]) (ex_start 1 0 1 ![0]) h0 hm hC
  rw [ex_acceptMean] at hlim
  refine ⟨![-1], ![3], exP, exQ, ![0], loSet, exP_density, exQ_density, ex_covers, h0, hlim, ex_target_mean, fun hd => ?_⟩
  have h1 := hd _ hm ⟨1, hC⟩
  rw [ex_target_mean] at h1
  have := averageTendsto_unique exQ_density hlim h1
  norm_num at this

/-! ### A target for which the samples are right -/

/-- Uniform target on the unit interval. -/
noncomputable def flatP (x : Fin 1 → ℝ) : ℝ := hiSet.indicator (fun _ => 1) x

theorem flatP_density : IsDensity flatP := by
  refine ⟨measurable_const.indicator hiSet_meas, fun x => indicator_nonneg (fun _ _ => zero_le_one) _, ?_⟩
  have e : (fun x => ENNReal.ofReal (flatP x)) = hiSet.indicator fun _ => 1 := by
    funext x
    unfold flatP
    by_cases h : x ∈ hiSet <;> simp [h]
  rw [e, lintegral_indicator_const hiSet_meas, hiSet_vol, mul_one]

theorem flat_support {x : Fin 1 → ℝ} (h : 0 < flatP x) : x ∈ hiSet := by
  by_contra hc
  simp [flatP, hc] at h

theorem flat_covers : Covers ![-1] ![3] flatP exQ (1/6) 1 := by
  refine ⟨by norm_num, fun x => ?_, fun x hx i => ?_, fun x y hx hy => ?_⟩
  · unfold flatP
    by_cases h : x ∈ hiSet <;> simp [h]
  · have := flat_support hx 0 (mem_univ _)
    rw [Subsingleton.elim i 0]
    simp only [Matrix.cons_val_zero]
    constructor <;> linarith [this.1, this.2]
  · have := exQ_from_box hx (Or.inl (flat_support hy))
    rw [this.1, this.2]
    exact ⟨le_refl _, le_refl _⟩

theorem flat_accept (x : Fin 1 → ℝ) (hx : 0 < flatP x) :
    acceptProb (densCfg ![-1] ![3] flatP exQ) exQ x univ = ENNReal.ofReal (1/6) := by
  have hx1 : flatP x = 1 := by simp [flatP, flat_support hx]
  have h := mass_eq flatP_density exQ_density flat_covers.inside x MeasurableSet.univ
  rw [hx1, ENNReal.ofReal_one, one_mul, Measure.restrict_univ] at h
  rw [h]
  have e : (fun y => flow flatP exQ x y) = hiSet.indicator fun _ => ENNReal.ofReal (1/6) := by
    funext y
    unfold flow
    by_cases hy : y ∈ hiSet
    · rw [exQ_near (Or.inl (flat_support hx)) (Or.inl hy), exQ_near (Or.inl hy) (Or.inl (flat_support hx)), hx1]
      simp [flatP, hy]
    · have h0 : flatP y = 0 := by simp [flatP, hy]
      rw [h0, zero_mul, min_eq_right (mul_nonneg (flatP_density.nonneg x) (exQ_density.nonneg _)), indicator_of_notMem hy,
        ENNReal.ofReal_zero]
  rw [e, lintegral_indicator_const hiSet_meas, hiSet_vol, mul_one]

example : DescribesTarget ![-1] ![3] flatP exQ 3 0 1 (fun _ => []) (fun _ => 0) (init ![2]) :=
  C131_partial flatP_density exQ_density flat_covers flat_accept (by norm_num) one_pos _ rfl (by
    intro i
    rw [Subsingleton.elim i 0]
    show (-1 : ℝ) ≤ 2 ∧ (2 : ℝ) ≤ 3
    norm_num)

end MHast
end Verif
