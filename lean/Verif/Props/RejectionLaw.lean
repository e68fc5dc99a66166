import Verif.Props.Rejection
import Verif.Proof.Accept
import Mathlib.MeasureTheory.Measure.Lebesgue.EqHaar

/-!
# Rejection sampling: C51, the law of the samples
-/

set_option linter.unusedSectionVars false
set_option autoImplicit false

namespace Verif
namespace Rejection

open MeasureTheory Set

variable {d : ℕ} {t q : (Fin d → ℝ) → ℝ} {s : ℝ} {k : ℕ}

theorem accepts_iff (hs : 0 < s) (hq : ∀ x, 0 ≤ q x) (ht : ∀ x, 0 ≤ t x) (henv : ∀ x, t x ≤ s * q x)
    (x : Fin d → ℝ) (u : ℝ) : accepts (densCfg t q s k) x u = true ↔ u * (q x * s) < t x := by
  simp only [accepts, ratio, densCfg, XF.fin_mul]
  rcases (hq x).eq_or_lt with h0 | h0
  · have h1 : t x = 0 := le_antisymm (by have := henv x; rwa [← h0, mul_zero] at this) (ht x)
    rw [h1, ← h0, zero_mul, mul_zero]
    have : (XF.fin 0 / XF.fin 0 : XF ℝ) = .nan := by simp [XF.fin_div, XF.infMul]
    rw [this]
    simp [XF.ltb]
  · rw [XF.fin_div_ne _ _ (by positivity)]
    simp only [XF.ltb, decide_eq_true_eq]
    rw [lt_div_iff₀ (by positivity)]

theorem accept_meas (hs : 0 < s) (hqm : Measurable q) (htm : Measurable t) (hq : ∀ x, 0 ≤ q x) (ht : ∀ x, 0 ≤ t x)
    (henv : ∀ x, t x ≤ s * q x) : MeasurableSet {p : (Fin d → ℝ) × ℝ | accepts (densCfg t q s k) p.1 p.2 = true} := by
  simp only [accepts_iff hs hq ht henv]
  exact measurableSet_lt (measurable_snd.mul ((hqm.comp measurable_fst).mul_const s)) (htm.comp measurable_fst)

theorem uniform_volume {A C : ℝ} (hA : 0 < A) (hC : 0 ≤ C) (hCA : C ≤ A) :
    (volume.restrict (Ico (0 : ℝ) 1)) {u | u * A < C} = ENNReal.ofReal (C / A) := by
  have hs : {u : ℝ | u * A < C} ∩ Ico 0 1 = Ico 0 (C / A) := by
    ext u
    simp only [mem_inter_iff, mem_setOf_eq, mem_Ico, ← lt_div_iff₀ hA]
    have : C / A ≤ 1 := (div_le_one hA).2 hCA
    constructor
    · rintro ⟨h1, h2, h3⟩
      exact ⟨h2, h1⟩
    · rintro ⟨h1, h2⟩
      exact ⟨h2, h1, h2.trans_le this⟩
  rw [Measure.restrict_apply' measurableSet_Ico, hs, Real.volume_Ico, sub_zero]

/-- **C51**, one proposed point: it is accepted and falls into `B` with probability `∫_B target / scaling`. So the accepted
points have density target / scaling, and a proposed point is accepted with probability `∫ target / scaling`. -/
theorem C51_accept (hs : 0 < s) (hqm : Measurable q) (htm : Measurable t) (hq : ∀ x, 0 ≤ q x) (ht : ∀ x, 0 ≤ t x)
    (henv : ∀ x, t x ≤ s * q x) {B : Set (Fin d → ℝ)} (hB : MeasurableSet B) :
    pairLaw q {p | accepts (densCfg t q s k) p.1 p.2 = true ∧ p.1 ∈ B} = ∫⁻ x in B, ENNReal.ofReal (t x / s) := by
  have hm : MeasurableSet {p : (Fin d → ℝ) × ℝ | accepts (densCfg t q s k) p.1 p.2 = true ∧ p.1 ∈ B} :=
    (accept_meas hs hqm htm hq ht henv).inter (measurable_fst hB)
  unfold pairLaw
  rw [Measure.prod_apply hm, lintegral_withDensity_eq_lintegral_mul _ hqm.ennreal_ofReal
    (measurable_measure_prodMk_left hm), ← lintegral_indicator hB]
  refine lintegral_congr fun x => ?_
  simp only [Pi.mul_apply, preimage_setOf_eq, accepts_iff hs hq ht henv]
  by_cases hx : x ∈ B
  · rw [indicator_of_mem hx]
    simp only [hx, and_true]
    rcases (hq x).eq_or_lt with h0 | h0
    · have h1 : t x = 0 := le_antisymm (by have := henv x; rwa [← h0, mul_zero] at this) (ht x)
      rw [h1, ← h0]
      simp
    · rw [uniform_volume (by positivity) (ht x) (by rw [mul_comm]; exact henv x), ← ENNReal.ofReal_mul h0.le]
      congr 1
      field_simp
  · rw [indicator_of_notMem hx]
    simp [hx]

/-! ### Whole calls -/

theorem body_take {n : ℕ} (c : Cfg d) (S : Rej d) (b : Fin n → (Fin d → ℝ) × ℝ) (h : S.samples.length < n) :
    (body c n ⟨fun j => if h : j < n then (b ⟨j, h⟩).1 else 0, fun j => if h : j < n then (b ⟨j, h⟩).2 else 0, false⟩ S).1.samples =
      S.samples ++ (((List.ofFn b).take (n - S.samples.length)).filter fun p => accepts c p.1 p.2).map Prod.fst := by
  simp only [body]
  congr 1
  have : (List.ofFn b).take (n - S.samples.length) =
      (List.range (n - S.samples.length)).map fun j => if h : j < n then b ⟨j, h⟩ else (0, 0) := by
    apply List.ext_getElem
    · simp
    · intro i h1 h2
      simp at h1 h2
      simp [show i < n by omega]
  rw [this, List.filter_map, List.map_map]
  have hf : (List.range (n - S.samples.length)).filter ((fun p : (Fin d → ℝ) × ℝ => accepts c p.1 p.2) ∘
      fun j => if h : j < n then b ⟨j, h⟩ else (0, 0)) =
      (List.range (n - S.samples.length)).filter fun j =>
        accepts c (if h : j < n then (b ⟨j, h⟩).1 else 0) (if h : j < n then (b ⟨j, h⟩).2 else 0) := by
    refine List.filter_congr fun j hj => ?_
    have hj : j < n := by have := List.mem_range.1 hj; omega
    simp [hj]
  rw [hf]
  refine List.map_congr_left fun j hj => ?_
  have hj : j < n := by have := List.mem_range.1 (List.mem_filter.1 hj).1; omega
  simp [hj]

theorem scriptOf_succ {T n : ℕ} (ω : Fin (T + 1) → Fin n → (Fin d → ℝ) × ℝ) :
    scriptOf ω = ⟨fun j => if h : j < n then (ω 0 ⟨j, h⟩).1 else 0, fun j => if h : j < n then (ω 0 ⟨j, h⟩).2 else 0, false⟩ ::
      scriptOf fun i => ω i.succ := by
  unfold scriptOf
  rw [List.ofFn_succ]

theorem loop_fills (c : Cfg d) (n : ℕ) : ∀ (T : ℕ) (ω : Fin T → Fin n → (Fin d → ℝ) × ℝ) (S : Rej d)
    (Bs : List (Set (Fin d → ℝ))), Bs.length + S.samples.length = n →
    ((∃ S' new, whileScript (fun S => decide (S.samples.length < n)) Iter.late (body c n) false (scriptOf ω) S = .done S' ∧
      S'.samples = S.samples ++ new ∧ List.Forall₂ (fun y B => y ∈ B) new Bs) ↔
     Accept.Fills (fun p : (Fin d → ℝ) × ℝ => accepts c p.1 p.2) Prod.fst (List.ofFn fun i => List.ofFn (ω i)) Bs)
  | T, ω, S, [], hn => by
    refine iff_of_true ?_ (Accept.fills_nil _)
    refine ⟨S, [], ?_, by simp, List.Forall₂.nil⟩
    have : ¬ S.samples.length < n := by simp at hn; omega
    cases hω : scriptOf ω <;> simp [whileScript, this]
  | 0, ω, S, B :: Bs, hn => by
    have hlt : S.samples.length < n := by simp at hn; omega
    have h0 : scriptOf ω = [] := by simp [scriptOf]
    simp [h0, whileScript, hlt, Accept.Fills]
  | T + 1, ω, S, B :: Bs, hn => by
    have hlt : S.samples.length < n := by simp at hn; omega
    have hm : n - S.samples.length = Bs.length + 1 := by simp at hn; omega
    have hb := body_take c S (ω 0) hlt
    rw [scriptOf_succ, List.ofFn_succ]
    rw [hm] at hb
    have h2 : ∀ it, (body c n it S).2 = none := fun it => rfl
    simp only [whileScript, Bool.not_false, Bool.true_and, hlt, decide_true, if_true, Accept.Fills]
    generalize hS1 : body c n ⟨fun j => if h : j < n then (ω 0 ⟨j, h⟩).1 else 0,
      fun j => if h : j < n then (ω 0 ⟨j, h⟩).2 else 0, false⟩ S = S1 at hb
    obtain ⟨S1, e⟩ := S1
    have he : e = none := by
      have := congrArg Prod.snd hS1
      exact this.symm
    subst he
    simp only at hb ⊢
    set acc := ((List.ofFn (ω 0)).take (Bs.length + 1)).filter fun p : (Fin d → ℝ) × ℝ => accepts c p.1 p.2 with hacc
    have hal : acc.length ≤ Bs.length + 1 :=
      (List.length_filter_le _ _).trans (by rw [List.length_take]; exact min_le_left _ _)
    have hlen : ((B :: Bs).drop acc.length).length + S1.samples.length = n := by
      rw [hb, List.length_drop, List.length_append, List.length_map, List.length_cons]
      omega
    have ih := loop_fills c n T (fun i => ω i.succ) S1 ((B :: Bs).drop acc.length) hlen
    constructor
    · rintro ⟨S', new, h1, h3, h4⟩
      obtain ⟨new', h5, -⟩ := loop_spec (c := c) n false (scriptOf fun i => ω i.succ) S1
      rw [h1] at h5
      have h5 : S'.samples = S1.samples ++ new' := h5
      have hnew : new = acc.map Prod.fst ++ new' := by
        rw [h5, hb, List.append_assoc] at h3
        exact (List.append_cancel_left h3).symm
      rw [hnew] at h4
      refine ⟨acc.length, ⟨rfl, ?_⟩, ih.1 ⟨S', new', h1, h5, ?_⟩⟩
      · have := List.forall₂_take acc.length h4
        rwa [List.take_left' (by simp)] at this
      · have := List.forall₂_drop acc.length h4
        rwa [List.drop_left' (by simp)] at this
    · rintro ⟨a, ⟨h1, h3⟩, h4⟩
      have h1 : acc.length = a := h1
      subst h1
      obtain ⟨S', new', h5, h6, h7⟩ := ih.2 h4
      refine ⟨S', acc.map Prod.fst ++ new', h5, by rw [h6, hb, List.append_assoc], ?_⟩
      have := List.rel_append h3 h7
      simp only [List.take_append_drop] at this
      exact this

theorem importance_fills (c : Cfg d) (hk : 0 < c.nKde) (n T : ℕ) (hn : 0 < n) (ω : Fin T → Fin n → (Fin d → ℝ) × ℝ)
    (idx : ℕ → ℕ) (S : Rej d) (Bs : List (Set (Fin d → ℝ))) (hl : Bs.length + S.samples.length = n) :
    (∃ S' new, importanceSample c n false (scriptOf ω) idx S = .done S' ∧ S'.samples = S.samples ++ new ∧
      List.Forall₂ (fun y B => y ∈ B) new Bs) ↔
     Accept.Fills (fun p : (Fin d → ℝ) × ℝ => accepts c p.1 p.2) Prod.fst (List.ofFn fun i => List.ofFn (ω i)) Bs := by
  rw [← loop_fills c n T ω S Bs hl]
  unfold importanceSample
  cases hw : whileScript (fun S => decide (S.samples.length < n)) Iter.late (body c n) false (scriptOf ω) S with
  | running S1 => simp
  | raised e S1 => simp
  | done S1 =>
    have hne : S1.samples ≠ [] := by
      have hc := whileScript_done hw rfl (by
        intro it hit
        unfold scriptOf at hit
        obtain ⟨i, rfl⟩ := List.mem_ofFn.1 hit
        rfl)
      simp only [decide_eq_false_iff_not, not_lt] at hc
      intro h0
      rw [h0] at hc
      simp at hc
      omega
    have hu : ∃ m, MHast.updateModel c.nKde idx S1.samples = .ok m := by
      simp [MHast.updateModel, hne, hk.ne']
    obtain ⟨m, hu⟩ := hu
    simp only [hu]
    constructor
    · rintro ⟨S', new, h1, h2, h3⟩
      cases h1
      exact ⟨S1, new, rfl, h2, h3⟩
    · rintro ⟨S', new, h1, h2, h3⟩
      cases h1
      exact ⟨_, new, rfl, h2, h3⟩

theorem pairLaw_prob (hq : IsDensity q) : IsProbabilityMeasure (pairLaw q) := by
  have h1 : IsProbabilityMeasure (volume.withDensity fun z : Fin d → ℝ => ENNReal.ofReal (q z)) :=
    ⟨by rw [withDensity_apply _ MeasurableSet.univ, Measure.restrict_univ, hq.total]⟩
  have h2 : IsProbabilityMeasure ((volume : Measure ℝ).restrict (Ico 0 1)) := ⟨by simp⟩
  unfold pairLaw
  infer_instance

/-- **C51**, whole calls: with an envelope `scaling * proposal >= target` the new samples returned by
`importance_sample(n)` are independent and distributed like the normalised target, whatever the object did before: the
probability that the `k`-th new sample lies in the `k`-th set of `Bs`, for all `k`, is the product of
`∫_B target / ∫ target`. -/
theorem C51_samples (hs : 0 < s) (hk : 0 < k) (hq : IsDensity q) (htm : Measurable t) (ht : ∀ x, 0 ≤ t x)
    (henv : ∀ x, t x ≤ s * q x) (hpos : ∫⁻ x, ENNReal.ofReal (t x) ≠ 0) (n : ℕ) (hn : 0 < n) (idx : ℕ → ℕ) (S : Rej d)
    (Bs : List (Set (Fin d → ℝ))) (hBs : ∀ B ∈ Bs, MeasurableSet B) (hl : Bs.length + S.samples.length = n) :
    returnProb (densCfg t q s k) q n idx S Bs =
      (Bs.map fun B => (∫⁻ x in B, ENNReal.ofReal (t x)) / ∫⁻ x, ENNReal.ofReal (t x)).prod := by
  haveI := pairLaw_prob hq
  have hα : ∀ B : Set (Fin d → ℝ), MeasurableSet B → Accept.α (pairLaw q)
      (fun p : (Fin d → ℝ) × ℝ => accepts (densCfg t q s k) p.1 p.2) Prod.fst B =
      (∫⁻ x in B, ENNReal.ofReal (t x)) / ENNReal.ofReal s := by
    intro B hB
    unfold Accept.α
    rw [C51_accept hs hq.meas htm hq.nonneg ht henv hB, div_eq_mul_inv, ← lintegral_mul_const' _ _ (by simp [hs])]
    refine lintegral_congr fun x => ?_
    rw [ENNReal.ofReal_div_of_pos hs, div_eq_mul_inv]
  have hs0 : ENNReal.ofReal s ≠ 0 := by simp [hs]
  have hu := hα univ MeasurableSet.univ
  rw [Measure.restrict_univ] at hu
  have hfin : ∫⁻ x, ENNReal.ofReal (t x) ≠ ⊤ := by
    refine ne_top_of_le_ne_top (b := ENNReal.ofReal s) ENNReal.ofReal_ne_top ?_
    calc ∫⁻ x, ENNReal.ofReal (t x) ≤ ∫⁻ x, ENNReal.ofReal s * ENNReal.ofReal (q x) := by
          refine lintegral_mono fun x => ?_
          rw [← ENNReal.ofReal_mul hs.le]
          exact ENNReal.ofReal_le_ofReal (henv x)
      _ = ENNReal.ofReal s := by rw [lintegral_const_mul' _ _ ENNReal.ofReal_ne_top, hq.total, mul_one]
  unfold returnProb
  simp only [importance_fills (densCfg t q s k) hk n _ hn _ idx S Bs hl]
  refine Accept.P_eq (pairLaw q) (accept_meas hs hq.meas htm hq.nonneg ht henv) measurable_fst _ ?_ ?_ n Bs (by omega) hBs
  · intro B hB
    rw [hα B hB, hu, div_eq_mul_inv, div_eq_mul_inv, div_eq_mul_inv]
    calc (∫⁻ x in B, ENNReal.ofReal (t x)) * (ENNReal.ofReal s)⁻¹
        = (∫⁻ x in B, ENNReal.ofReal (t x)) * (ENNReal.ofReal s)⁻¹ *
            ((∫⁻ x, ENNReal.ofReal (t x)) * (∫⁻ x, ENNReal.ofReal (t x))⁻¹) := by
          rw [ENNReal.mul_inv_cancel hpos hfin, mul_one]
      _ = _ := by ring
  · rw [hu]
    exact ENNReal.div_ne_zero.2 ⟨hpos, ENNReal.ofReal_ne_top⟩

/-- Uniform proposal on `[0,1)`, target `2x` there, scaling 2. -/
example : IsDensity (fun x : Fin 1 → ℝ => if 0 ≤ x 0 ∧ x 0 < 1 then 1 else 0) ∧
    ∀ x : Fin 1 → ℝ, (if 0 ≤ x 0 ∧ x 0 < 1 then 2 * x 0 else 0) ≤ 2 * (if 0 ≤ x 0 ∧ x 0 < 1 then (1 : ℝ) else 0) := by
  have hset : MeasurableSet {x : Fin 1 → ℝ | 0 ≤ x 0 ∧ x 0 < 1} :=
    (measurableSet_le (f := fun _ => (0 : ℝ)) measurable_const (measurable_pi_apply 0)).inter
      (measurableSet_lt (g := fun _ => (1 : ℝ)) (measurable_pi_apply 0) measurable_const)
  refine ⟨⟨Measurable.ite hset measurable_const measurable_const, fun x => by split <;> norm_num, ?_⟩, ?_⟩
  · have h1 : ∀ x : Fin 1 → ℝ, ENNReal.ofReal (if 0 ≤ x 0 ∧ x 0 < 1 then (1 : ℝ) else 0) =
        {x : Fin 1 → ℝ | 0 ≤ x 0 ∧ x 0 < 1}.indicator (fun _ => 1) x := by
      intro x
      by_cases h : 0 ≤ x 0 ∧ x 0 < 1 <;> simp [indicator, h]
    simp only [h1]
    rw [lintegral_indicator hset]
    have h2 : {x : Fin 1 → ℝ | 0 ≤ x 0 ∧ x 0 < 1} = Set.pi univ fun _ => Ico 0 1 := by
      ext x
      simp [Set.mem_pi]
    rw [lintegral_const, Measure.restrict_apply_univ, one_mul, h2, volume_pi_pi]
    simp
  · intro x
    split
    · rename_i h
      linarith [h.2]
    · simp

end Rejection
end Verif
