import Verif.Proof.AISRun
import Verif.Proof.Convergence
import Verif.Props.SampleLaw

/-!
# Property C116: long runs of DM-AIS
-/

set_option linter.unusedSectionVars false
set_option autoImplicit false

namespace Verif

open MeasureTheory AISRound Filter Topology

variable {d N k : ℕ}

namespace DM

/-- A proposal centred anywhere right of `l` sends its points past `b` with positive probability. -/
theorem far_pos (F : Family d) (i₀ : Fin d) (C : ℝ) : 0 < stdNormal d {z | C < F.draw 0 z i₀} := by
  have hm : Measurable fun z => F.draw 0 z := (F.draw_continuous.comp (Continuous.prodMk_right 0)).measurable
  have hs : MeasurableSet {x : Fin d → ℝ | C < x i₀} := measurableSet_lt measurable_const (measurable_pi_apply i₀)
  have e : stdNormal d {z | C < F.draw 0 z i₀} = law volume (F.dens 0) {x | C < x i₀} := by
    rw [← F.draw_law 0, Measure.map_apply hm hs]
    rfl
  rw [e]
  unfold law
  rw [withDensity_apply _ hs]
  have hne : volume {x : Fin d → ℝ | C < x i₀} ≠ 0 := by
    have ho : IsOpen {x : Fin d → ℝ | C < x i₀} := isOpen_lt continuous_const (continuous_apply i₀)
    exact (ho.measure_pos volume ⟨fun _ => C + 1, by simp⟩).ne'
  refine (setLIntegral_pos_iff ((F.dens_measurable 0).ennreal_ofReal)).2 ?_
  have : (Function.support fun x => ENNReal.ofReal (F.dens 0 x)) = Set.univ := by
    ext x
    simp [F.dens_pos 0 x]
  rw [this, Set.univ_inter]
  exact pos_iff_ne_zero.2 hne

theorem far_all (F : Family d) (i₀ : Fin d) (C : ℝ) :
    0 < (Measure.pi fun _ : Fin N × Fin k => stdNormal d) {z | ∀ p, C < F.draw 0 (z p) i₀} := by
  have : {z : Fin N × Fin k → Fin d → ℝ | ∀ p, C < F.draw 0 (z p) i₀} = Set.univ.pi fun _ => {z | C < F.draw 0 z i₀} := by
    ext z; simp
  rw [this, Measure.pi_pi]
  exact pos_iff_ne_zero.2 (Finset.prod_ne_zero_iff.2 fun _ _ => (far_pos F i₀ C).ne')

/-- An event of positive probability happens in some round. -/
theorem happens {Ξ : Type*} [MeasurableSpace Ξ] (P : Measure Ξ) [IsProbabilityMeasure P] {E : Set Ξ} (hE : MeasurableSet E)
    (h : 0 < P E) : ∀ᵐ ω ∂(Measure.infinitePi fun _ : ℕ => P), ∃ r, ω r ∈ E := by
  rw [ae_iff]
  have hs : ∀ n : ℕ, (Measure.infinitePi fun _ : ℕ => P) {ω | ¬ ∃ r, ω r ∈ E} ≤ P Eᶜ ^ n := by
    intro n
    have hle : {ω : ℕ → Ξ | ¬ ∃ r, ω r ∈ E} ⊆ (Finset.range n : Set ℕ).pi fun _ => Eᶜ := by
      intro ω hω i _ hi
      exact hω ⟨i, hi⟩
    refine (measure_mono hle).trans ?_
    rw [Measure.infinitePi_pi _ fun _ _ => hE.compl]
    simp
  have hlt : P Eᶜ < 1 := by
    rw [prob_compl_eq_one_sub hE]
    exact ENNReal.sub_lt_self ENNReal.one_ne_top one_ne_zero h.ne'
  exact le_antisymm (ge_of_tendsto' (ENNReal.tendsto_pow_atTop_nhds_zero_of_lt_one hlt) hs) (zero_le)

theorem sum_zero_all (ws : List ℝ) (h : ∀ w ∈ ws, 0 ≤ w) (hz : ws.sum = 0) : ∀ w ∈ ws, w = 0 := fun w hw =>
  le_antisymm (hz ▸ List.single_le_sum h w hw) (h w hw)

/-- One round keeps every centre right of `l`. -/
theorem body_right (hN : 0 < N) (F : Family d) {t : (Fin d → ℝ) → ℝ} (ht : ∀ x, 0 ≤ t x) {a b : Fin d → ℝ}
    (htz : ∀ x, x ∉ Set.Icc a b → t x = 0) {i₀ : Fin d} {l : ℝ} (hl : l ≤ a i₀) (it : Iter ℝ d)
    (h0 : ∀ i j p, p ≤ 0 → it.bern i j p = false) (h1 : ∀ i j p, 1 ≤ p → it.bern i j p = true) {S : AIS ℝ d}
    (hS : Good N S) (hc : ∀ c ∈ S.centers, l ≤ c i₀) :
    ∀ c ∈ (body N k (fun c x => .fin (F.dens c x)) (fun x => .fin (t x)) it S).1.centers, l ≤ c i₀ := by
  unfold body
  simp only
  split
  · exact hc
  · have hw : ((AIS.batch N k it.pts).map fun x => (AIS.weigh (fun c x => XF.fin (F.dens c x)) (fun x => XF.fin (t x))
        { S with numQ := S.numQ + N * k } x)) =
        ((AIS.batch N k it.pts).map fun x => t x / mixVal F.dens S.centers N x).map XF.fin := by
      rw [List.map_map]
      refine List.map_congr_left fun x _ => ?_
      unfold AIS.weigh
      have e := AIS.prob_fin F.dens { S with numQ := S.numQ + N * k } N hS.centers hS.model x
      rw [e]
      exact XF.fin_div_ne _ _ (mixVal_pos F.dens F.dens_pos _ N hN hS.centers x).ne'
    rw [hw]
    generalize hws : ((AIS.batch N k it.pts).map fun x => t x / mixVal F.dens S.centers N x) = ws
    have hnn : ∀ w ∈ ws, 0 ≤ w := by
      rw [← hws]
      intro w hw
      obtain ⟨x, -, rfl⟩ := List.mem_map.1 hw
      exact div_nonneg (ht x) (mixVal_pos F.dens F.dens_pos _ N hN hS.centers x).le
    rcases eq_or_lt_of_le (List.sum_nonneg hnn) with hz | hp
    · rw [resample_error _ _ _ (sum_zero_all ws hnn hz.symm)]
      exact hc
    · obtain ⟨S', e, -, -, -, -, hcs⟩ := C39_dm_resample it.bern h0 h1 (AIS.batch N k it.pts) ws (by rw [← hws]; simp) hnn hp
        { S with numQ := S.numQ + N * k, numPi := S.numPi + (AIS.batch N k it.pts).length }
      rw [e]
      simp only
      intro c hc'
      obtain ⟨i, hi, rfl, hpos⟩ := hcs c hc'
      by_contra hlt
      have hx : (AIS.batch N k it.pts)[i] ∉ Set.Icc a b := fun h => hlt (hl.trans (h.1 i₀))
      have : ws[i]'(by rw [← hws]; simpa using hi) = t (AIS.batch N k it.pts)[i] / mixVal F.dens S.centers N (AIS.batch N k it.pts)[i] := by
        simp [← hws]
      rw [this, htz _ hx, zero_div] at hpos
      exact lt_irrefl _ hpos

/-- Once the points of a round all miss the support, the call has raised. -/
theorem raises_at {A : Type*} (hNk : 2 ≤ N * k) (F : Family d) {t : (Fin d → ℝ) → ℝ} (ht : ∀ x, 0 ≤ t x) {a b : Fin d → ℝ}
    (htz : ∀ x, x ∉ Set.Icc a b → t x = 0) {i₀ : Fin d} {l : ℝ} (hl : l ≤ a i₀) {bern : A → ℕ → ℕ → ℝ → Bool}
    (h0 : ∀ α i j p, p ≤ 0 → bern α i j p = false) (h1 : ∀ α i j p, 1 ≤ p → bern α i j p = true)
    (ω : ℕ → (Fin N × Fin k → Fin d → ℝ) × A) (q : ℕ) :
    ∀ (r m n : ℕ) (S : AIS ℝ d), Good N S → (∀ c ∈ S.centers, l ≤ c i₀) →
      (∀ p, b i₀ - l < F.draw 0 ((ω (r + q)).1 p) i₀) → S.samples.length + q * (N * k) < n → q < m →
      ∃ S', importanceSample N k (fun c x => .fin (F.dens c x)) (fun x => .fin (t x)) n false (script F bern t ω m r S) S =
        .raised .value S' := by
  have hN : 0 < N := Nat.pos_of_ne_zero fun h => by subst h; omega
  induction q with
  | zero =>
    intro r m n S hS hc hfar hn hm
    obtain ⟨m, rfl⟩ : ∃ m', m = m' + 1 := ⟨m - 1, by omega⟩
    simp only [importanceSample, script, whileScript]
    rw [if_pos (by simp; omega)]
    obtain ⟨-, h, -⟩ := body_good hN F.dens_pos ht (k := k) (record F bern S (ω r)) S hS
    rcases h with ⟨h, -⟩ | ⟨-, -, ⟨i, hi, j, hj, hp⟩, -⟩
    · generalize body N k (fun c x => XF.fin (F.dens c x)) (fun x => XF.fin (t x)) (record F bern S (ω r)) S = o at h
      obtain ⟨S', e⟩ := o
      simp only at h
      subst h
      exact ⟨S', rfl⟩
    · exfalso
      have hz : t ((record F bern S (ω r)).pts i j) = 0 := by
        refine htz _ fun hx => ?_
        have hx := hx.2 i₀
        have e : (record F bern S (ω r)).pts i j = F.draw (S.centers.getD i 0) ((ω r).1 (⟨i, hi⟩, ⟨j, hj⟩)) := by
          simp [record, roundPts, famPts, hi, hj]
        have hlen : i < S.centers.length := by rw [hS.centers]; exact hi
        have hci : l ≤ S.centers.getD i 0 i₀ := by
          rw [List.getD_eq_getElem _ _ hlen]
          exact hc _ (List.getElem_mem hlen)
        rw [e, F.draw_eq, Pi.add_apply] at hx
        have hf := hfar (⟨i, hi⟩, ⟨j, hj⟩)
        rw [F.draw_eq, add_zero, Nat.add_zero] at hf
        linarith
      exact hp.ne' hz
  | succ q ih =>
    intro r m n S hS hc hfar hn hm
    obtain ⟨m, rfl⟩ : ∃ m', m = m' + 1 := ⟨m - 1, by omega⟩
    have hex : q * (N * k) + N * k = (q + 1) * (N * k) := by ring
    simp only [importanceSample, script, whileScript]
    rw [if_pos (by simp; omega)]
    obtain ⟨hg, h, -⟩ := body_good hN F.dens_pos ht (k := k) (record F bern S (ω r)) S hS
    have hr := body_right (k := k) hN F ht htz hl (record F bern S (ω r)) (h0 _) (h1 _) hS hc
    rcases h with ⟨h, -⟩ | ⟨h, -, -, hs, -⟩
    · generalize body N k (fun c x => XF.fin (F.dens c x)) (fun x => XF.fin (t x)) (record F bern S (ω r)) S = o at h
      obtain ⟨S', e⟩ := o
      simp only at h
      subst h
      exact ⟨S', rfl⟩
    · have := ih (r + 1) m n _ hg hr (by rw [show r + 1 + q = r + (q + 1) by ring]; exact hfar)
        (by rw [hs, List.length_append, AIS.batch_length]; omega) (by omega)
      generalize body N k (fun c x => XF.fin (F.dens c x)) (fun x => XF.fin (t x)) (record F bern S (ω r)) S = o at h this
      obtain ⟨S', e⟩ := o
      simp only at h
      subst h
      exact this

end DM

/-- **C116 refuted** For every target that vanishes outside a bounded box, whatever the proposals, the search space and the
law of the multinomial draws: with probability one DM-AIS raises ValueError as soon as it is asked for enough samples. -/
theorem C116_fails_almost_surely {A : Type*} [MeasurableSpace A] (hNk : 2 ≤ N * k) (hd : 0 < d) {lo hi : Fin d → ℝ}
    (hbox : ∀ i, lo i ≤ hi i) (F : Family d) {u : ℕ → Fin d → ℝ} (hu : ∀ j i, 0 ≤ u j i ∧ u j i ≤ 1) {S₀ : AIS ℝ d}
    (hS₀ : AIS.reset N lo hi u = .ok S₀) {t : (Fin d → ℝ) → ℝ} (ht : ∀ x, 0 ≤ t x) {a b : Fin d → ℝ}
    (htz : ∀ x, x ∉ Set.Icc a b → t x = 0) (Q : Measure A) [IsProbabilityMeasure Q] {bern : A → ℕ → ℕ → ℝ → Bool}
    (h0 : ∀ α i j p, p ≤ 0 → bern α i j p = false) (h1 : ∀ α i j p, 1 ≤ p → bern α i j p = true) :
    ∀ᵐ ω ∂(Measure.infinitePi fun _ : ℕ => (Measure.pi fun _ : Fin N × Fin k => stdNormal d).prod Q),
      ∃ n₀, ∀ n ≥ n₀, ∀ m ≥ n, ∃ S, DM.importanceSample N k (fun c x => .fin (F.dens c x)) (fun x => .fin (t x)) n false
        (DM.script F bern t ω m 0 S₀) S₀ = .raised .value S := by
  have hN : 0 < N := Nat.pos_of_ne_zero fun h => by subst h; omega
  obtain ⟨i₀⟩ : Nonempty (Fin d) := ⟨⟨0, hd⟩⟩
  obtain ⟨l, hl⟩ : ∃ l, l = min (lo i₀) (a i₀) := ⟨_, rfl⟩
  have hE : MeasurableSet {z : Fin N × Fin k → Fin d → ℝ | ∀ p, b i₀ - l < F.draw 0 (z p) i₀} := by
    have : {z : Fin N × Fin k → Fin d → ℝ | ∀ p, b i₀ - l < F.draw 0 (z p) i₀} =
        ⋂ p, {z | b i₀ - l < F.draw 0 (z p) i₀} := by ext z; simp
    rw [this]
    refine MeasurableSet.iInter fun p => measurableSet_lt measurable_const ?_
    have hc : Continuous fun z : Fin N × Fin k → Fin d → ℝ => F.draw 0 (z p) := by
      have h : Continuous fun z : Fin N × Fin k → Fin d → ℝ => ((0 : Fin d → ℝ), z p) := by fun_prop
      exact F.draw_continuous.comp h
    exact (measurable_pi_apply i₀).comp hc.measurable
  have hh := DM.happens ((Measure.pi fun _ : Fin N × Fin k => stdNormal d).prod Q) (hE.prod MeasurableSet.univ)
    (by
      rw [Measure.prod_prod, measure_univ, mul_one]
      exact DM.far_all F i₀ _)
  have hr := AIS.reset_ok (K := ℝ) N hN lo hi u
  rw [hS₀] at hr
  have hgood : DM.Good N S₀ := by
    cases hr
    exact ⟨by simp, rfl, [], rfl, rfl, by simp, by simp⟩
  have hcen : ∀ c ∈ S₀.centers, l ≤ c i₀ := by
    cases hr
    intro c hc
    obtain ⟨j, -, rfl⟩ := List.mem_map.1 hc
    have h2 := hu j i₀
    have h3 := hbox i₀
    have h4 : l ≤ lo i₀ := hl ▸ min_le_left _ _
    simp only
    nlinarith
  have hs0 : S₀.samples = [] := by cases hr; rfl
  filter_upwards [hh] with ω hω
  obtain ⟨q, hq⟩ := hω
  refine ⟨q * (N * k) + 1, fun n hn m hm => ?_⟩
  refine DM.raises_at hNk F ht htz (hl ▸ min_le_right _ _ : l ≤ a i₀) h0 h1 ω q 0 m n S₀ hgood hcen ?_ ?_ ?_
  · rw [Nat.zero_add]
    exact hq.1
  · rw [hs0]
    simp only [List.length_nil]
    omega
  · nlinarith

/-- **C116, partial** On a target that is positive everywhere DM-AIS never raises and delivers, for every `n` and whatever
the random numbers. -/
theorem C116_partial {A : Type*} (hNk : 2 ≤ N * k) {lo hi : Fin d → ℝ} (F : Family d) {u : ℕ → Fin d → ℝ} {S₀ : AIS ℝ d}
    (hS₀ : AIS.reset N lo hi u = .ok S₀) {t : (Fin d → ℝ) → ℝ} (ht : ∀ x, 0 < t x) {bern : A → ℕ → ℕ → ℝ → Bool}
    (ω : ℕ → (Fin N × Fin k → Fin d → ℝ) × A) {n m : ℕ} (hm : n ≤ m) :
    ∃ S, DM.importanceSample N k (fun c x => .fin (F.dens c x)) (fun x => .fin (t x)) n false
      (DM.script F bern t ω m 0 S₀) S₀ = .done S ∧ n ≤ S.samples.length := by
  have hN : 0 < N := Nat.pos_of_ne_zero fun h => by subst h; omega
  have hk : 0 < k := Nat.pos_of_ne_zero fun h => by subst h; omega
  have hlen : ∀ m r S, (DM.script F bern t ω m r S).length = m := by
    intro m
    induction m with
    | zero => intros; rfl
    | succ m ih => intro r S; simp [DM.script, ih]
  have hlate : ∀ m r S, ∀ it ∈ DM.script F bern t ω m r S, it.late = false := by
    intro m
    induction m with
    | zero => intro r S it h; cases h
    | succ m ih =>
      intro r S it h
      rcases List.mem_cons.1 h with rfl | h
      · rfl
      · exact ih _ _ _ h
  obtain ⟨S, hS⟩ := C38_terminates hNk F.dens_pos (DM.Reach.reset (k := k) (qv := F.dens) u S₀ hS₀) t (fun x => (ht x).le) n
    false (DM.script F bern t ω m 0 S₀) (by rw [hlen]; omega) (fun it _ => ⟨0, hN, 0, hk, ht _⟩)
  refine ⟨S, hS, ?_⟩
  have := whileScript_done hS rfl (hlate m 0 S₀)
  simpa using this

/-- **C116 refuted**, as the negation of the claim: it is not true of every target with a positive finite integral that DM-AIS
delivers with probability one. -/
theorem C116_refuted {A : Type*} [MeasurableSpace A] (hNk : 2 ≤ N * k) (hd : 0 < d) {lo hi : Fin d → ℝ}
    (hbox : ∀ i, lo i ≤ hi i) (F : Family d) {u : ℕ → Fin d → ℝ} (hu : ∀ j i, 0 ≤ u j i ∧ u j i ≤ 1) {S₀ : AIS ℝ d}
    (hS₀ : AIS.reset N lo hi u = .ok S₀) (Q : Measure A) [IsProbabilityMeasure Q] {bern : A → ℕ → ℕ → ℝ → Bool}
    (h0 : ∀ α i j p, p ≤ 0 → bern α i j p = false) (h1 : ∀ α i j p, 1 ≤ p → bern α i j p = true) :
    ¬ ∀ t : (Fin d → ℝ) → ℝ, Measurable t → (∀ x, 0 ≤ t x) → Integrable t → 0 < ∫ x, t x →
      ∀ᵐ ω ∂(Measure.infinitePi fun _ : ℕ => (Measure.pi fun _ : Fin N × Fin k => stdNormal d).prod Q),
        ∀ n, ∀ m ≥ n, ∃ S, DM.importanceSample N k (fun c x => .fin (F.dens c x)) (fun x => .fin (t x)) n false
          (DM.script F bern t ω m 0 S₀) S₀ = .done S := by
  intro h
  have hnn : ∀ x : Fin d → ℝ, 0 ≤ (Set.Icc (0 : Fin d → ℝ) 1).indicator (fun _ => (1 : ℝ)) x :=
    fun x => Set.indicator_nonneg (fun _ _ => zero_le_one) x
  have hi : Integrable ((Set.Icc (0 : Fin d → ℝ) 1).indicator fun _ => (1 : ℝ)) := by
    rw [integrable_indicator_iff measurableSet_Icc]
    exact integrableOn_const isCompact_Icc.measure_lt_top.ne
  have hp : 0 < ∫ x, (Set.Icc (0 : Fin d → ℝ) 1).indicator (fun _ => (1 : ℝ)) x := by
    rw [integral_indicator measurableSet_Icc]
    simp [Measure.real, Real.volume_Icc_pi]
  have e1 := h _ (measurable_const.indicator measurableSet_Icc) hnn hi hp
  have e2 := C116_fails_almost_surely hNk hd hbox F hu hS₀ hnn (a := 0) (b := 1)
    (fun x hx => Set.indicator_of_notMem hx _) Q h0 h1
  obtain ⟨ω, h3, n₀, h4⟩ := (e1.and e2).exists
  obtain ⟨S, hS⟩ := h3 n₀ n₀ le_rfl
  obtain ⟨S', hS'⟩ := h4 n₀ le_rfl n₀ le_rfl
  rw [hS] at hS'
  cases hS'

/-- Non-vacuity: coins made from one uniform number per flip satisfy the hypotheses on the multinomial draws. -/
example : ∃ (A : Type) (_ : MeasurableSpace A) (Q : Measure A) (_ : IsProbabilityMeasure Q) (bern : A → ℕ → ℕ → ℝ → Bool),
    (∀ α i j p, p ≤ 0 → bern α i j p = false) ∧ (∀ α i j p, 1 ≤ p → bern α i j p = true) :=
  ⟨ℝ, inferInstance, volume.restrict (Set.Icc 0 1), ⟨by simp⟩, fun α _ _ p => decide (0 < p ∧ (α < p ∨ 1 ≤ p)), by
    intro α i j p h
    simp [not_lt.2 h], by
    intro α i j p h
    simp [h]
    linarith⟩

end Verif
