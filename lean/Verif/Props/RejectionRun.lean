import Verif.Proof.RejectionRun

/-!
# Properties C132 and C133: long runs of rejection sampling
-/

set_option linter.unusedSectionVars false
set_option autoImplicit false

namespace Verif
namespace Rejection

open MeasureTheory Set Filter Topology

variable {d : ℕ} {t q : (Fin d → ℝ) → ℝ} {s : ℝ} {k : ℕ}

/-- **C132**, any scaling constant: however the requests are split over calls, with probability one every call returns, with
exactly as many samples as asked for, and the average of `f` over them tends to the expectation of `f` under the density
proportional to `min(target, scaling * proposal)`. -/
theorem C132_limit (hs : 0 < s) (hk : 0 < k) (hq : IsDensity q) (htm : Measurable t) (ht : ∀ x, 0 ≤ t x)
    (hpos : 0 < ∫ x, min (t x) (s * q x)) {f : (Fin d → ℝ) → ℝ} (hf : Measurable f)
    (hi : Integrable fun x => f x * min (t x) (s * q x)) :
    AverageTendsto (densCfg t q s k) q f ((∫ x, f x * min (t x) (s * q x)) / ∫ x, min (t x) (s * q x)) := by
  have hα : 0 < acceptProb (densCfg t q s k) q := by
    rw [acceptProb_eq hs hq htm ht]
    exact div_pos hpos hs
  filter_upwards [stream_slln (k := k) hs hq htm ht hf hi] with ω hω
  obtain ⟨h1, h2⟩ := hω
  refine ⟨fun S hS n hn idx => ?_, fun δ hδ => ?_⟩
  · obtain ⟨P, hP⟩ := acc_unbounded hα h1 n
    exact call_ends hk hn hP hS.holds idx
  · have hr := h2.div h1 hα.ne'
    have hlim : (∫ x, f x * min (t x) (s * q x)) / s / acceptProb (densCfg t q s k) q =
        (∫ x, f x * min (t x) (s * q x)) / ∫ x, min (t x) (s * q x) := by
      rw [acceptProb_eq hs hq htm ht]
      field_simp
    rw [hlim] at hr
    obtain ⟨N, hN⟩ := (Metric.tendsto_atTop.1 hr) δ hδ
    refine ⟨max N 1, fun n hn S hS hl m idx S' hc => ?_⟩
    obtain ⟨S1, hw, e1, e2, -⟩ := call_inv hc
    obtain ⟨hh, hlen, -⟩ := loop_done (n := n) 0 m S hS.holds hl (by simp) hw
    refine ⟨by rw [e1, hlen], ?_⟩
    have hp : n ≤ S1.drawn := by
      rw [← hlen, hh.len]
      exact acc_le _
    have hN1 := hN S1.drawn (by omega)
    have hp0 : (0 : ℝ) < S1.drawn := by
      have : 0 < S1.drawn := by omega
      exact_mod_cast this
    have e : average f S' = ((acc (densCfg t q s k) ω S1.drawn).map fun j => f (ω j).1).sum / (S1.drawn : ℝ) /
        (((acc (densCfg t q s k) ω S1.drawn).length : ℝ) / S1.drawn) := by
      unfold average
      rw [e1, hh.len, hh, List.map_map, div_div_div_cancel_right₀ hp0.ne']
      rfl
    rw [e]
    rw [Real.dist_eq] at hN1
    exact hN1

/-- **C132** If `scaling * proposal` dominates the target, the averages over the samples of rejection sampling tend, with
probability one, to the expectation under the normalised target. -/
theorem C132_consistent (hs : 0 < s) (hk : 0 < k) (hq : IsDensity q) (htm : Measurable t) (ht : ∀ x, 0 ≤ t x)
    (henv : ∀ x, t x ≤ s * q x) (hpos : 0 < ∫ x, t x) {f : (Fin d → ℝ) → ℝ} (hf : Measurable f)
    (hi : Integrable fun x => f x * t x) :
    AverageTendsto (densCfg t q s k) q f ((∫ x, f x * t x) / ∫ x, t x) := by
  have e : ∀ x, min (t x) (s * q x) = t x := fun x => min_eq_left (henv x)
  have := C132_limit (k := k) (f := f) hs hk hq htm ht (by simpa only [e] using hpos) hf (by simpa only [e] using hi)
  simpa only [e] using this

/-- The limit is determined: averages cannot tend to two numbers. -/
theorem AverageTendsto.unique {c : Cfg d} (hq : IsDensity q) {f : (Fin d → ℝ) → ℝ} {L L' : ℝ} (h : AverageTendsto c q f L)
    (h' : AverageTendsto c q f L') : L = L' := by
  haveI := pairLaw_prob hq
  haveI : IsProbabilityMeasure (streamLaw q) := by unfold streamLaw; infer_instance
  obtain ⟨ω, ⟨a1, a2⟩, -, b2⟩ := (h.and h').exists
  by_contra hne
  have hδ : 0 < |L - L'| / 2 := by
    have := abs_pos.2 (sub_ne_zero.2 hne)
    linarith
  obtain ⟨N, hN⟩ := a2 _ hδ
  obtain ⟨N', hN'⟩ := b2 _ hδ
  obtain ⟨m, S', hS'⟩ := a1 init .new (max (max N N') 1) (by omega) id
  have x1 := (hN _ (by omega) init .new (by simp [init]) m id S' hS').2
  have x2 := (hN' _ (by omega) init .new (by simp [init]) m id S' hS').2
  have : |L - L'| ≤ |average f S' - L| + |average f S' - L'| := by
    have := abs_sub (average f S' - L') (average f S' - L)
    rw [show average f S' - L' - (average f S' - L) = L - L' by ring] at this
    linarith
  linarith

/-! ### The acceptance rate -/

theorem rate_zero (hs : 0 < s) (hk : 0 < k) (hq : IsDensity q) (htm : Measurable t) (ht : ∀ x, 0 ≤ t x)
    (h0 : 0 < acceptProb (densCfg t q s k) q) (h1 : acceptProb (densCfg t q s k) q < 1) :
    RateTendsto (densCfg t q s k) q 0 := by
  filter_upwards [stream_slln (k := k) hs hq htm ht (f := fun _ => 1) measurable_const
    (by simpa using min_integrable hs hq htm ht)] with ω hω
  obtain ⟨hω, -⟩ := hω
  refine ⟨fun n hn idx => ?_, fun δ hδ => ?_⟩
  · obtain ⟨P, hP⟩ := acc_unbounded h0 hω n
    exact call_ends hk hn hP (Fed.new (c := densCfg t q s k) (ω := ω)).holds idx
  · obtain ⟨j, hj⟩ := exists_nat_gt (1 / δ)
    have hev : ∀ᶠ n : ℕ in atTop, ∀ i ∈ Finset.range j,
        (acc (densCfg t q s k) ω ((step (densCfg t q s k) ω n)^[i] 0)).length < n := by
      rw [eventually_all_finset]
      intro i _
      have hm := (missing_tendsto hω i).2.1
      have hlt : 1 - (1 - acceptProb (densCfg t q s k) q) ^ i < 1 := by
        have : 0 < (1 - acceptProb (densCfg t q s k) q) ^ i := pow_pos (by linarith) i
        linarith
      filter_upwards [hm.eventually_lt_const hlt, eventually_gt_atTop 0] with n hn hn0
      rw [div_lt_one (by exact_mod_cast hn0)] at hn
      exact_mod_cast hn
    obtain ⟨N, hN⟩ := eventually_atTop.1 hev
    refine ⟨max N 1, fun n hn m idx S' hc => ?_⟩
    have hn0 : 0 < n := by omega
    obtain ⟨S1, hw, e1, -, e3⟩ := call_inv hc
    obtain ⟨hh, hlen, hnum⟩ := loop_done (n := n) j m init (Fed.new (c := densCfg t q s k) (ω := ω)).holds
      (by simp [init]) (fun i hi => hN n (by omega) i (Finset.mem_range.2 hi)) hw
    have hj0 : 0 < j := by
      have : (0 : ℝ) < j := lt_trans (by positivity) hj
      exact_mod_cast this
    have hnum' : j * n ≤ S1.numQ := by simpa [init] using hnum
    have hnq : 0 < S1.numQ := lt_of_lt_of_le (Nat.mul_pos hj0 hn0) hnum'
    refine ⟨(n : ℝ) / S1.numQ, ?_, ?_⟩
    · unfold acceptanceRate
      rw [if_neg, if_neg (by rw [e3]; omega), e1, hlen, e3]
      intro h
      rw [e1] at h
      rw [h] at hlen
      simp at hlen
      omega
    · rw [sub_zero, abs_of_nonneg (by positivity), div_lt_iff₀ (by exact_mod_cast hnq)]
      have h3 : (j : ℝ) * n ≤ S1.numQ := by exact_mod_cast hnum'
      have h4 : 1 < δ * j := by
        rw [div_lt_iff₀ hδ] at hj
        linarith
      have h5 : (0 : ℝ) < n := by exact_mod_cast hn0
      nlinarith

theorem rate_one (hs : 0 < s) (hk : 0 < k) (hq : IsDensity q) (htm : Measurable t) (ht : ∀ x, 0 ≤ t x)
    (h1 : acceptProb (densCfg t q s k) q = 1) :
    RateTendsto (densCfg t q s k) q 1 := by
  haveI := pairLaw_prob hq
  have hA := accept_meas_min (k := k) hs hq.meas htm hq.nonneg ht
  have hall : ∀ᵐ ω ∂streamLaw q, ∀ j : ℕ, accepts (densCfg t q s k) (ω j).1 (ω j).2 = true := by
    rw [ae_all_iff]
    intro j
    have hmp := measurePreserving_eval_infinitePi (fun _ : ℕ => pairLaw q) j
    have hae : ∀ᵐ p ∂pairLaw q, accepts (densCfg t q s k) p.1 p.2 = true := by
      have : pairLaw q {p | accepts (densCfg t q s k) p.1 p.2 = true} = 1 := by
        unfold acceptProb at h1
        rw [measureReal_def] at h1
        exact (ENNReal.toReal_eq_one_iff _).1 h1
      exact (mem_ae_iff_prob_eq_one hA).2 this
    exact hmp.quasiMeasurePreserving.ae hae
  filter_upwards [hall] with ω hω
  have hacc : ∀ p, acc (densCfg t q s k) ω p = List.range p := by
    intro p
    unfold acc
    rw [List.filter_eq_self]
    intro j _
    exact hω j
  refine ⟨fun n hn idx => ?_, fun δ hδ => ⟨1, fun n hn m idx S' hc => ?_⟩⟩
  · exact call_ends hk hn (P := n) (by rw [hacc]; simp) (Fed.new (c := densCfg t q s k) (ω := ω)).holds idx
  · obtain ⟨S1, hw, e1, -, e3⟩ := call_inv hc
    obtain ⟨hh, hlen, -⟩ := loop_done (n := n) 0 m init (Fed.new (c := densCfg t q s k) (ω := ω)).holds
      (by simp [init]) (by simp) hw
    have hgo : (decide ((init : Rej d).samples.length < n) && !false) = true :=
      Bool.and_eq_true_iff.2 ⟨decide_eq_true hn, rfl⟩
    have hnq : S1.numQ = n := by
      cases m with
      | zero =>
        simp only [streamScript, whileScript] at hw
        rw [if_pos hgo] at hw
        cases hw
      | succ m =>
        simp only [streamScript, whileScript] at hw
        rw [if_pos hgo] at hw
        have hb := (body_holds (n := n) (Fed.new (c := densCfg t q s k) (ω := ω)).holds).len
        rw [hacc, body_drawn] at hb
        have hskip : whileScript (fun S => decide (S.samples.length < n)) Iter.late (body (densCfg t q s k) n) false
            (streamScript (densCfg t q s k) n ω m (body (densCfg t q s k) n (nextIter ω init) init).1)
            (body (densCfg t q s k) n (nextIter ω init) init).1 =
            .done (body (densCfg t q s k) n (nextIter ω init) init).1 :=
          whileScript_skip (by rw [hb]; simp [init])
        have hw' := hskip.symm.trans hw
        cases hw'
        simp [body, init]
    refine ⟨1, ?_, by simpa using hδ⟩
    have hn0 : (n : ℝ) ≠ 0 := by
      have : n ≠ 0 := by omega
      exact_mod_cast this
    unfold acceptanceRate
    rw [if_neg, if_neg (by rw [e3]; omega), e1, hlen, e3, hnq, div_self hn0]
    intro h
    rw [e1] at h
    rw [h] at hlen
    simp at hlen
    omega

theorem RateTendsto.unique {c : Cfg d} (hq : IsDensity q) {r r' : ℝ} (h : RateTendsto c q r) (h' : RateTendsto c q r') :
    r = r' := by
  haveI := pairLaw_prob hq
  haveI : IsProbabilityMeasure (streamLaw q) := by unfold streamLaw; infer_instance
  obtain ⟨ω, ⟨a1, a2⟩, -, b2⟩ := (h.and h').exists
  by_contra hne
  have hδ : 0 < |r - r'| / 2 := by
    have := abs_pos.2 (sub_ne_zero.2 hne)
    linarith
  obtain ⟨N, hN⟩ := a2 _ hδ
  obtain ⟨N', hN'⟩ := b2 _ hδ
  obtain ⟨m, S', hS'⟩ := a1 (max (max N N') 1) (by omega) id
  obtain ⟨v, hv, x1⟩ := hN _ (by omega) m id S' hS'
  obtain ⟨v', hv', x2⟩ := hN' _ (by omega) m id S' hS'
  rw [hv] at hv'
  cases hv'
  have : |r - r'| ≤ |v - r| + |v - r'| := by
    have := abs_sub (v - r') (v - r)
    rw [show v - r' - (v - r) = r - r' by ring] at this
    linarith
  linarith

/-- **C133 refuted** Whenever some proposals are rejected, the acceptance rate reported by rejection sampling tends to zero
instead of the probability of acceptance. -/
theorem C133_refuted (hs : 0 < s) (hk : 0 < k) (hq : IsDensity q) (htm : Measurable t) (ht : ∀ x, 0 ≤ t x)
    (h0 : 0 < acceptProb (densCfg t q s k) q) (h1 : acceptProb (densCfg t q s k) q < 1) :
    RateTendsto (densCfg t q s k) q 0 ∧ ¬ RateTendsto (densCfg t q s k) q (acceptProb (densCfg t q s k) q) := by
  have h := rate_zero hs hk hq htm ht h0 h1
  refine ⟨h, fun h' => ?_⟩
  exact h0.ne (h.unique hq h')

/-- **C133, partial** The reported rate tends to the probability of acceptance exactly if every proposal is accepted. Missing
with respect to C133: all other cases, where it tends to zero. -/
theorem C133_partial (hs : 0 < s) (hk : 0 < k) (hq : IsDensity q) (htm : Measurable t) (ht : ∀ x, 0 ≤ t x)
    (h0 : 0 < acceptProb (densCfg t q s k) q) :
    RateTendsto (densCfg t q s k) q (acceptProb (densCfg t q s k) q) ↔ acceptProb (densCfg t q s k) q = 1 := by
  haveI := pairLaw_prob hq
  constructor
  · intro h
    by_contra hne
    exact (C133_refuted hs hk hq htm ht h0 (lt_of_le_of_ne measureReal_le_one hne)).2 h
  · intro h
    have := rate_one hs hk hq htm ht h
    rwa [h]

/-- Uniform proposal on `[0,1)`, target one half there, scaling 1: half of the points are accepted. -/
example : ∃ t q : (Fin 1 → ℝ) → ℝ, IsDensity q ∧ Measurable t ∧ (∀ x, 0 ≤ t x) ∧ (∀ x, t x ≤ 1 * q x) ∧
    0 < acceptProb (densCfg t q 1 3) q ∧ acceptProb (densCfg t q 1 3) q < 1 ∧ 0 < ∫ x, t x := by
  have hbox : MeasurableSet (Set.pi univ fun _ : Fin 1 => Ico (0 : ℝ) 1) := MeasurableSet.univ_pi fun _ => measurableSet_Ico
  have hv : volume (Set.pi univ fun _ : Fin 1 => Ico (0 : ℝ) 1) = 1 := by rw [volume_pi_pi]; simp
  set B := Set.pi univ fun _ : Fin 1 => Ico (0 : ℝ) 1 with hB
  have hq : IsDensity (B.indicator fun _ => (1 : ℝ)) := by
    refine ⟨measurable_const.indicator hbox, fun x => indicator_nonneg (fun _ _ => zero_le_one) x, ?_⟩
    have : (fun x => ENNReal.ofReal (B.indicator (fun _ => (1 : ℝ)) x)) = B.indicator fun _ => 1 := by
      ext x
      by_cases h : x ∈ B <;> simp [h]
    rw [this, lintegral_indicator hbox]
    simp [hv]
  have htm : Measurable (B.indicator fun _ => (1 / 2 : ℝ)) := measurable_const.indicator hbox
  have ht : ∀ x, 0 ≤ B.indicator (fun _ => (1 / 2 : ℝ)) x := fun x => indicator_nonneg (fun _ _ => by norm_num) x
  have henv : ∀ x, B.indicator (fun _ => (1 / 2 : ℝ)) x ≤ 1 * B.indicator (fun _ => (1 : ℝ)) x := by
    intro x
    by_cases h : x ∈ B
    · simp [h]; norm_num
    · simp [h]
  have hint : ∫ x, B.indicator (fun _ => (1 / 2 : ℝ)) x = 1 / 2 := by
    rw [integral_indicator hbox]
    simp [Measure.real, hv]
  have hα : acceptProb (densCfg (B.indicator fun _ => (1 / 2 : ℝ)) (B.indicator fun _ => (1 : ℝ)) 1 3)
      (B.indicator fun _ => (1 : ℝ)) = 1 / 2 := by
    rw [acceptProb_eq one_pos hq htm ht]
    simp only [min_eq_left (henv _), hint]
    norm_num
  exact ⟨_, _, hq, htm, ht, henv, by rw [hα]; norm_num, by rw [hα]; norm_num, by rw [hint]; norm_num⟩

end Rejection
end Verif
