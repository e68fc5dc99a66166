import Verif.Spec.RejectionRun
import Verif.Props.RejectionMin
import Verif.Proof.Convergence

/-!
# Long runs of rejection sampling: helper lemmas
-/

set_option linter.unusedSectionVars false
set_option autoImplicit false

namespace Verif
namespace Rejection

open MeasureTheory Set Filter Topology

variable {d : ℕ} {c : Cfg d} {ω : ℕ → (Fin d → ℝ) × ℝ} {n : ℕ}

/-- Indices of the accepted points among the first `p`. -/
noncomputable def acc (c : Cfg d) (ω : ℕ → (Fin d → ℝ) × ℝ) (p : ℕ) : List ℕ :=
  (List.range p).filter fun j => accepts c (ω j).1 (ω j).2

theorem acc_add (p b : ℕ) : acc c ω (p + b) = acc c ω p ++
    ((List.range b).filter fun j => accepts c (ω (p + j)).1 (ω (p + j)).2).map (p + ·) := by
  unfold acc
  rw [List.range_add, List.filter_append, List.filter_map]
  rfl

theorem acc_succ (p : ℕ) : acc c ω (p + 1) = acc c ω p ++ if accepts c (ω p).1 (ω p).2 then [p] else [] := by
  unfold acc
  rw [List.range_succ, List.filter_append]
  simp [List.filter_cons]

theorem acc_mono {p p' : ℕ} (h : p ≤ p') : (acc c ω p).length ≤ (acc c ω p').length := by
  obtain ⟨b, rfl⟩ := Nat.exists_eq_add_of_le h
  rw [acc_add]
  simp

theorem acc_le (p : ℕ) : (acc c ω p).length ≤ p := (List.length_filter_le _ _).trans (by simp)

/-- The object holds the accepted ones of the points it has drawn. -/
def Holds (c : Cfg d) (ω : ℕ → (Fin d → ℝ) × ℝ) (S : Rej d) : Prop :=
  S.samples = (acc c ω S.drawn).map fun j => (ω j).1

theorem Holds.len {S : Rej d} (h : Holds c ω S) : S.samples.length = (acc c ω S.drawn).length := by
  rw [h, List.length_map]

theorem body_holds {S : Rej d} (h : Holds c ω S) : Holds c ω (body c n (nextIter ω S) S).1 := by
  unfold Holds at h ⊢
  simp only [body, nextIter]
  rw [acc_add, List.map_append, ← h]
  simp [Function.comp_def]

theorem body_drawn (S : Rej d) (it : Iter d) : (body c n it S).1.drawn = S.drawn + (n - S.samples.length) := rfl

theorem body_len {S : Rej d} (it : Iter d) (hl : S.samples.length ≤ n) : (body c n it S).1.samples.length ≤ n := by
  simp only [body, List.length_append, List.length_map]
  have := List.length_filter_le (fun j => accepts c (it.pts j) (it.u j)) (List.range (n - S.samples.length))
  rw [List.length_range] at this
  omega

/-- Rounds: the number of points drawn after the next one. -/
noncomputable def step (c : Cfg d) (ω : ℕ → (Fin d → ℝ) × ℝ) (n p : ℕ) : ℕ := p + (n - (acc c ω p).length)

/-- A loop that ended: the samples are the first accepted ones, and every round counted `n` proposals. -/
theorem loop_done {S' : Rej d} (k : ℕ) : ∀ (m : ℕ) (S : Rej d), Holds c ω S → S.samples.length ≤ n →
    (∀ j < k, (acc c ω ((step c ω n)^[j] S.drawn)).length < n) →
    whileScript (fun S => decide (S.samples.length < n)) Iter.late (body c n) false (streamScript c n ω m S) S = .done S' →
    Holds c ω S' ∧ S'.samples.length = n ∧ S.numQ + k * n ≤ S'.numQ := by
  induction k with
  | zero =>
    intro m
    induction m with
    | zero =>
      intro S hS hl _ h
      simp only [streamScript, whileScript] at h
      split at h
      · cases h
      · rename_i hc
        cases h
        simp at hc
        exact ⟨hS, by omega, by simp⟩
    | succ m ih =>
      intro S hS hl hk h
      simp only [streamScript, whileScript] at h
      split at h
      · have := ih _ (body_holds hS) (body_len _ hl) (by simp) h
        refine ⟨this.1, this.2.1, ?_⟩
        have h3 := this.2.2
        simp only [body] at h3
        omega
      · rename_i hc
        cases h
        simp at hc
        exact ⟨hS, by omega, by simp⟩
  | succ k ihk =>
    intro m S hS hl hk h
    have h0 := hk 0 (by omega)
    simp only [Function.iterate_zero, id] at h0
    rw [← hS.len] at h0
    cases m with
    | zero =>
      simp only [streamScript, whileScript] at h
      simp [h0] at h
    | succ m =>
      simp only [streamScript, whileScript] at h
      rw [if_pos (by simp [h0])] at h
      have := ihk m _ (body_holds hS) (body_len _ hl) (by
        intro j hj
        have := hk (j + 1) (by omega)
        rw [Function.iterate_succ_apply] at this
        rw [body_drawn, hS.len]
        exact this) h
      refine ⟨this.1, this.2.1, ?_⟩
      have h3 := this.2.2
      simp only [body] at h3
      have : (k + 1) * n = k * n + n := by ring
      omega

/-- The loop ends once `P` points contain enough accepted ones. -/
theorem loop_ends {P : ℕ} (hP : n ≤ (acc c ω P).length) : ∀ (m : ℕ) (S : Rej d), Holds c ω S → P ≤ S.drawn + m →
    ∃ S', whileScript (fun S => decide (S.samples.length < n)) Iter.late (body c n) false (streamScript c n ω m S) S = .done S' := by
  intro m
  induction m with
  | zero =>
    intro S hS hm
    have := acc_mono (c := c) (ω := ω) hm
    rw [Nat.add_zero, ← hS.len] at this
    refine ⟨S, whileScript_skip ?_⟩
    simp
    omega
  | succ m ih =>
    intro S hS hm
    by_cases hc : S.samples.length < n
    · obtain ⟨S', h⟩ := ih _ (body_holds (n := n) hS) (by rw [body_drawn]; omega)
      refine ⟨S', ?_⟩
      simp only [streamScript, whileScript]
      rw [if_pos (by simp [hc])]
      exact h
    · exact ⟨S, whileScript_skip (by simpa using hc)⟩

theorem call_inv {S S' : Rej d} {script : List (Iter d)} {idx : ℕ → ℕ} (h : importanceSample c n false script idx S = .done S') :
    ∃ S1, whileScript (fun S => decide (S.samples.length < n)) Iter.late (body c n) false script S = .done S1 ∧
      S'.samples = S1.samples ∧ S'.drawn = S1.drawn ∧ S'.numQ = S1.numQ := by
  unfold importanceSample at h
  split at h
  · cases h
  · cases h
  · rename_i S1 hw
    refine ⟨S1, hw, ?_⟩
    simp only at h
    split at h
    · cases h
    · cases h
      exact ⟨rfl, rfl, rfl⟩

theorem loop_holds : ∀ (m : ℕ) (S S' : Rej d), Holds c ω S →
    whileScript (fun S => decide (S.samples.length < n)) Iter.late (body c n) false (streamScript c n ω m S) S = .done S' →
    Holds c ω S' := by
  intro m
  induction m with
  | zero =>
    intro S S' hS h
    simp only [streamScript, whileScript] at h
    split at h
    · cases h
    · cases h; exact hS
  | succ m ih =>
    intro S S' hS h
    simp only [streamScript, whileScript] at h
    split at h
    · exact ih _ _ (body_holds hS) h
    · cases h; exact hS

theorem Fed.holds {S : Rej d} (h : Fed c ω S) : Holds c ω S := by
  induction h with
  | new => rfl
  | call _ h ih =>
    obtain ⟨S1, h1, h2, h3, -⟩ := call_inv h
    have := loop_holds _ _ _ ih h1
    unfold Holds at this ⊢
    rw [h2, h3, this]

theorem call_ends (hk : 0 < c.nKde) (hn : 0 < n) {P : ℕ} (hP : n ≤ (acc c ω P).length) {S : Rej d} (hS : Holds c ω S)
    (idx : ℕ → ℕ) : ∃ m S', importanceSample c n false (streamScript c n ω m S) idx S = .done S' := by
  obtain ⟨S1, h1⟩ := loop_ends hP P S hS (by omega)
  have hlate : ∀ m S, ∀ it ∈ streamScript c n ω m S, it.late = false := by
    intro m
    induction m with
    | zero => intro S it h; cases h
    | succ m ih =>
      intro S it h
      rcases List.mem_cons.1 h with rfl | h
      · rfl
      · exact ih _ _ h
  have hc := whileScript_done h1 rfl (hlate P S)
  have hne : S1.samples ≠ [] := by
    intro h0
    rw [h0] at hc
    simp at hc
    omega
  refine ⟨P, ?_⟩
  unfold importanceSample
  rw [h1]
  simp [MHast.updateModel, hne, hk.ne']

/-! ### The strong law along the stream -/

theorem sum_acc (f : (Fin d → ℝ) → ℝ) (p : ℕ) :
    ((acc c ω p).map fun j => f (ω j).1).sum =
      ∑ j ∈ Finset.range p, if accepts c (ω j).1 (ω j).2 then f (ω j).1 else 0 := by
  unfold acc
  rw [MetricCompute.sum_filter_map]
  rfl

theorem card_acc (p : ℕ) :
    ((acc c ω p).length : ℝ) = ∑ j ∈ Finset.range p, if accepts c (ω j).1 (ω j).2 then (1 : ℝ) else 0 := by
  rw [← sum_acc (fun _ => 1)]
  simp

variable {t q : (Fin d → ℝ) → ℝ} {s : ℝ} {k : ℕ}

theorem accepted_law (hs : 0 < s) (hqm : Measurable q) (htm : Measurable t) (hq : ∀ x, 0 ≤ q x) (ht : ∀ x, 0 ≤ t x) :
    ((pairLaw q).restrict {p | accepts (densCfg t q s k) p.1 p.2 = true}).map Prod.fst =
      volume.withDensity fun x => ENNReal.ofReal (min (t x) (s * q x) / s) := by
  ext B hB
  rw [Measure.map_apply measurable_fst hB, Measure.restrict_apply (measurable_fst hB), withDensity_apply _ hB,
    ← C125_accept (k := k) hs hqm htm hq ht hB]
  congr 1
  ext p
  simp only [mem_inter_iff, mem_preimage, mem_setOf_eq]
  exact and_comm

theorem accepted_mean (hs : 0 < s) (hq : IsDensity q) (htm : Measurable t) (ht : ∀ x, 0 ≤ t x) {f : (Fin d → ℝ) → ℝ}
    (hf : Measurable f) (hi : Integrable fun x => f x * min (t x) (s * q x)) :
    Integrable (fun p : (Fin d → ℝ) × ℝ => if accepts (densCfg t q s k) p.1 p.2 then f p.1 else 0) (pairLaw q) ∧
    ∫ p, (if accepts (densCfg t q s k) p.1 p.2 then f p.1 else 0) ∂pairLaw q = (∫ x, f x * min (t x) (s * q x)) / s := by
  have hA := accept_meas_min (k := k) hs hq.meas htm hq.nonneg ht
  have hl := accepted_law (k := k) hs hq.meas htm hq.nonneg ht
  have e : (fun p : (Fin d → ℝ) × ℝ => if accepts (densCfg t q s k) p.1 p.2 then f p.1 else 0) =
      {p | accepts (densCfg t q s k) p.1 p.2 = true}.indicator fun p => f p.1 := by
    ext p
    by_cases h : accepts (densCfg t q s k) p.1 p.2 = true <;> simp [indicator, h]
  have hm : Measurable fun x => min (t x) (s * q x) / s := (htm.min (hq.meas.const_mul s)).div_const s
  have h0 : ∀ x, 0 ≤ min (t x) (s * q x) / s := fun x =>
    div_nonneg (le_min (ht x) (mul_nonneg hs.le (hq.nonneg x))) hs.le
  have hsm : ∀ x, (ENNReal.ofReal (min (t x) (s * q x) / s)).toReal • f x = f x * min (t x) (s * q x) / s := by
    intro x
    rw [ENNReal.toReal_ofReal (h0 x), smul_eq_mul]
    ring
  have hint : Integrable f (volume.withDensity fun x => ENNReal.ofReal (min (t x) (s * q x) / s)) := by
    rw [integrable_withDensity_iff_integrable_smul' hm.ennreal_ofReal (Eventually.of_forall fun _ => ENNReal.ofReal_lt_top)]
    simp only [hsm]
    exact hi.div_const s
  rw [e]
  constructor
  · rw [integrable_indicator_iff hA, IntegrableOn]
    rw [← hl] at hint
    exact (integrable_map_measure hf.aestronglyMeasurable measurable_fst.aemeasurable).1 hint
  · rw [integral_indicator hA, ← integral_map (φ := Prod.fst) measurable_fst.aemeasurable hf.aestronglyMeasurable, hl,
      integral_withDensity_eq_integral_toReal_smul hm.ennreal_ofReal (Eventually.of_forall fun _ => ENNReal.ofReal_lt_top)]
    simp only [hsm]
    rw [integral_div]

theorem min_integrable (hs : 0 < s) (hq : IsDensity q) (htm : Measurable t) (ht : ∀ x, 0 ≤ t x) :
    Integrable fun x => min (t x) (s * q x) := by
  have hqi : Integrable q := by
    refine ⟨hq.meas.aestronglyMeasurable, ?_⟩
    rw [hasFiniteIntegral_iff_ofReal (Eventually.of_forall hq.nonneg), hq.total]
    exact ENNReal.one_lt_top
  refine Integrable.mono' (hqi.const_mul s) (htm.min (hq.meas.const_mul s)).aestronglyMeasurable (Eventually.of_forall fun x => ?_)
  rw [Real.norm_of_nonneg (le_min (ht x) (mul_nonneg hs.le (hq.nonneg x)))]
  exact min_le_right _ _

theorem acceptProb_eq (hs : 0 < s) (hq : IsDensity q) (htm : Measurable t) (ht : ∀ x, 0 ≤ t x) :
    acceptProb (densCfg t q s k) q = (∫ x, min (t x) (s * q x)) / s := by
  have h := (accepted_mean (k := k) hs hq htm ht (f := fun _ => 1) measurable_const
    (by simpa using min_integrable hs hq htm ht)).2
  simp only [one_mul] at h
  rw [← h]
  have hA := accept_meas_min (k := k) hs hq.meas htm hq.nonneg ht
  have e : (fun p : (Fin d → ℝ) × ℝ => if accepts (densCfg t q s k) p.1 p.2 then (1 : ℝ) else 0) =
      {p | accepts (densCfg t q s k) p.1 p.2 = true}.indicator 1 := by
    ext p
    by_cases h : accepts (densCfg t q s k) p.1 p.2 = true <;> simp [indicator, h]
  rw [e, integral_indicator_one hA]
  rfl

/-- Both averages over the proposed points converge. -/
theorem stream_slln (hs : 0 < s) (hq : IsDensity q) (htm : Measurable t) (ht : ∀ x, 0 ≤ t x) {f : (Fin d → ℝ) → ℝ}
    (hf : Measurable f) (hi : Integrable fun x => f x * min (t x) (s * q x)) :
    ∀ᵐ ω ∂streamLaw q,
      Tendsto (fun p : ℕ => ((acc (densCfg t q s k) ω p).length : ℝ) / p) atTop (𝓝 (acceptProb (densCfg t q s k) q)) ∧
      Tendsto (fun p : ℕ => ((acc (densCfg t q s k) ω p).map fun j => f (ω j).1).sum / p) atTop
        (𝓝 ((∫ x, f x * min (t x) (s * q x)) / s)) := by
  haveI := pairLaw_prob hq
  have hA := accept_meas_min (k := k) hs hq.meas htm hq.nonneg ht
  obtain ⟨i1, e1⟩ := accepted_mean (k := k) hs hq htm ht (f := fun _ => 1) measurable_const
    (by simpa using min_integrable hs hq htm ht)
  obtain ⟨i2, e2⟩ := accepted_mean (k := k) hs hq htm ht hf hi
  have s1 := MetricCompute.slln_iid (pairLaw q) _ (Measurable.ite hA measurable_const measurable_const) i1
  have m2 : Measurable fun p : (Fin d → ℝ) × ℝ => if accepts (densCfg t q s k) p.1 p.2 then f p.1 else 0 :=
    Measurable.ite hA (hf.comp measurable_fst) measurable_const
  have s2 := MetricCompute.slln_iid (pairLaw q) _ m2 i2
  rw [e1] at s1
  rw [e2] at s2
  simp only [one_mul] at s1
  unfold streamLaw
  filter_upwards [s1, s2] with ω h1 h2
  rw [acceptProb_eq hs hq htm ht]
  simp only [card_acc, sum_acc]
  exact ⟨h1, h2⟩

/-- The number of accepted points grows without bound if a positive fraction is accepted. -/
theorem acc_unbounded {α : ℝ} (hα : 0 < α) (h : Tendsto (fun p : ℕ => ((acc c ω p).length : ℝ) / p) atTop (𝓝 α)) (n : ℕ) :
    ∃ P, n ≤ (acc c ω P).length := by
  have h1 : Tendsto (fun p : ℕ => ((acc c ω p).length : ℝ) / p * p) atTop atTop :=
    h.pos_mul_atTop hα tendsto_natCast_atTop_atTop
  obtain ⟨P, hP, h2⟩ := ((h1.eventually_ge_atTop (n : ℝ)).and (eventually_gt_atTop 0)).exists
  refine ⟨P, ?_⟩
  rw [div_mul_cancel₀ _ (by positivity)] at hP
  exact_mod_cast hP

/-- The fraction still missing after `j` rounds tends to `(1 - α) ^ j`. -/
theorem missing_tendsto {α : ℝ} (h : Tendsto (fun p : ℕ => ((acc c ω p).length : ℝ) / p) atTop (𝓝 α)) (j : ℕ) :
    (∀ n, (acc c ω ((step c ω n)^[j] 0)).length ≤ n) ∧
    Tendsto (fun n : ℕ => ((acc c ω ((step c ω n)^[j] 0)).length : ℝ) / n) atTop (𝓝 (1 - (1 - α) ^ j)) ∧
    (0 < j → ∃ γ, Tendsto (fun n : ℕ => (((step c ω n)^[j] 0 : ℕ) : ℝ) / n) atTop (𝓝 γ) ∧ α * γ = 1 - (1 - α) ^ j ∧
      ∀ n, n ≤ (step c ω n)^[j] 0) := by
  have hlen : ∀ n j, (acc c ω ((step c ω n)^[j] 0)).length ≤ n := by
    intro n j
    induction j with
    | zero => simp [acc]
    | succ j ih =>
      rw [Function.iterate_succ_apply']
      generalize (step c ω n)^[j] 0 = p at ih
      unfold step
      rw [acc_add, List.length_append, List.length_map]
      have := List.length_filter_le (fun j => accepts c (ω (p + j)).1 (ω (p + j)).2) (List.range (n - (acc c ω p).length))
      rw [List.length_range] at this
      omega
  refine ⟨fun n => hlen n j, ?_⟩
  induction j with
  | zero =>
    refine ⟨?_, fun h => absurd h (lt_irrefl _)⟩
    simp [acc]
  | succ j ih =>
    obtain ⟨ih1, ih2⟩ := ih
    have hge : ∀ n, n ≤ (step c ω n)^[j + 1] 0 := by
      intro n
      induction j with
      | zero => simp [step, acc]
      | succ j ihj =>
        rw [Function.iterate_succ_apply']
        have := (hlen n (j + 1))
        have h3 : ∀ i, (step c ω n)^[i] 0 ≤ (step c ω n)^[i + 1] 0 := by
          intro i
          rw [Function.iterate_succ_apply']
          exact Nat.le_add_right _ _
        have h4 : n ≤ (step c ω n)^[1] 0 := by simp [step, acc]
        have h5 : (step c ω n)^[1] 0 ≤ (step c ω n)^[j + 1 + 1] 0 :=
          (monotone_nat_of_le_succ h3) (by omega)
        rw [← Function.iterate_succ_apply' (step c ω n) (j + 1) 0]
        exact h4.trans h5
    have hγ : ∃ γ, Tendsto (fun n : ℕ => (((step c ω n)^[j + 1] 0 : ℕ) : ℝ) / n) atTop (𝓝 γ) ∧
        α * γ = 1 - (1 - α) ^ (j + 1) := by
      have hstep : ∀ n : ℕ, (((step c ω n)^[j + 1] 0 : ℕ) : ℝ) / n =
          (((step c ω n)^[j] 0 : ℕ) : ℝ) / n + ((n : ℝ) / n - ((acc c ω ((step c ω n)^[j] 0)).length : ℝ) / n) := by
        intro n
        rw [Function.iterate_succ_apply']
        show ((((step c ω n)^[j] 0) + (n - (acc c ω ((step c ω n)^[j] 0)).length) : ℕ) : ℝ) / n = _
        rw [Nat.cast_add, Nat.cast_sub (hlen n j)]
        ring
      have hone : Tendsto (fun n : ℕ => (n : ℝ) / n) atTop (𝓝 1) := by
        refine tendsto_const_nhds.congr' ?_
        filter_upwards [eventually_gt_atTop 0] with n hn
        rw [div_self (by positivity)]
      simp only [hstep]
      rcases Nat.eq_zero_or_pos j with hj | hj
      · subst hj
        refine ⟨0 + (1 - (1 - (1 - α) ^ 0)), Tendsto.add ?_ (hone.sub ih1), by simp⟩
        simp
      · obtain ⟨γ, h1, h2, -⟩ := ih2 hj
        refine ⟨γ + (1 - (1 - (1 - α) ^ j)), h1.add (hone.sub ih1), ?_⟩
        rw [mul_add, h2, pow_succ]
        ring
    obtain ⟨γ, h1, h2⟩ := hγ
    refine ⟨?_, fun _ => ⟨γ, h1, h2, hge⟩⟩
    rw [← h2]
    have ht : Tendsto (fun n => (step c ω n)^[j + 1] 0) atTop atTop := tendsto_atTop_mono hge tendsto_id
    refine ((h.comp ht).mul h1).congr' ?_
    filter_upwards [eventually_gt_atTop 0] with n hn
    have : (0 : ℝ) < ((step c ω n)^[j + 1] 0 : ℕ) := by exact_mod_cast lt_of_lt_of_le hn (hge n)
    simp only [Function.comp]
    field_simp

end Rejection
end Verif
