import Verif.Proof.Metrics
import Mathlib.Analysis.SpecialFunctions.Log.Basic
import Mathlib.Tactic.NormNum
import Mathlib.Algebra.Order.BigOperators.Ring.Finset

/-!
# Properties of the metrics: C16-C22, C76
-/

set_option linter.unusedSectionVars false
set_option autoImplicit false

namespace Verif

/-! ### C16, C17 KL divergence -/

/-- **C16** Whenever the KL value is a finite number it is nonnegative: for the log probability version on every pair of
arrays, with infinities and NaN anywhere, and for the probability version likewise. -/
theorem C16_kl_nonneg (l : Pairs ℝ) :
    (∀ v, KL.computeFromSamples l = .ok (.fin v) → 0 ≤ v) ∧
    (∀ res l' v, KL.computeFromProbs l = .ok (.arr res, l') → res.sum = .fin v → 0 ≤ v) := by
  by_cases hl : l = []
  · subst hl
    constructor
    · intro v h; simp [KL.computeFromSamples, KL.computeFromLogProbs, Except.map] at h
    · intro res l' v h; simp [KL.computeFromProbs] at h
  constructor
  · intro v h
    simp only [KL.computeFromSamples, KL.computeFromLogProbs_eq l hl, Except.map, Except.ok.injEq] at h
    by_cases hb : ∃ x ∈ l.filter KL.logInlier, x.1 = .pinf ∨ x.2 = .pinf
    · exfalso
      rcases sum_bad (KL.logTerms_bad _ KL.inl_ne hb) (by
        obtain ⟨x, hx, _⟩ := hb
        intro h0
        rw [List.map_eq_nil_iff] at h0
        rw [h0] at hx
        cases hx) with h1 | h1 <;> rw [h1] at h <;> cases h
    · push Not at hb
      obtain ⟨r, hr⟩ := KL.eq_map_fin₂ KL.inl_ne hb
      rw [hr, KL.logTerms_sum] at h
      cases h
      exact KL.real_nonneg (KL.pos_exp r)
  · intro res l' v h hv
    by_cases hn : l.filter KL.inlier = []
    · rw [KL.computeFromProbs_none l hl hn] at h
      cases h
    have hin : ∀ x ∈ l.filter KL.inlier, KL.inlier x = true := fun x hx => (List.mem_filter.1 hx).2
    have h' : ∀ x ∈ l.filter KL.inlier, _ := fun x hx => (KL.inlier_iff x).1 (hin x hx)
    have hsum : ∀ (f : XF ℝ × XF ℝ → XF ℝ), (∀ x ∈ l.filter KL.inlier, (∃ a, 0 < a ∧ f x = .fin a) ∨ f x = .pinf) →
        XF.ltb (.fin 0) ((l.filter KL.inlier).map f).sum = true := by
      intro f hf
      have n1 : ∀ y ∈ (l.filter KL.inlier).map f, y ≠ XF.nan ∧ y ≠ XF.ninf := by
        intro y hy
        obtain ⟨x, hx, rfl⟩ := List.mem_map.1 hy
        rcases hf x hx with ⟨a, _, e⟩ | e <;> rw [e] <;> simp
      by_cases hp : XF.pinf ∈ (l.filter KL.inlier).map f
      · rw [sum_pinf n1 hp]; rfl
      · obtain ⟨r, hr⟩ := KL.eq_map_fin n1 hp
        rw [hr, XF.sum_map_fin]
        have : 0 < r.sum := by
          apply sum_pos_of_ne
          · intro b hb
            have : XF.fin b ∈ (l.filter KL.inlier).map f := by rw [hr]; exact List.mem_map_of_mem hb
            obtain ⟨y, hy, e⟩ := List.mem_map.1 this
            rcases hf y hy with ⟨a, ha, e'⟩ | e' <;> rw [e'] at e <;> simp at e
            rw [← e]; exact ha
          · rintro rfl
            simp only [List.map_nil, List.map_eq_nil_iff] at hr
            exact hn hr
        simpa [XF.ltb] using this
    rw [KL.computeFromProbs_eq l hl (hsum _ fun x hx => (h' x hx).1) (hsum _ fun x hx => (h' x hx).2)] at h
    simp only [Except.ok.injEq, Prod.mk.injEq, KL.ProbRes.arr.injEq] at h
    rw [← h.1] at hv
    by_cases hb : ∃ x ∈ l.filter KL.inlier, x.1 = .pinf ∨ x.2 = .pinf
    · rw [KL.probTerms_bad _ hin hb] at hv
      cases hv
    · push Not at hb
      obtain ⟨r, hp, hr⟩ := KL.eq_map_pos h' hb
      have hr0 : r ≠ [] := by rintro rfl; exact hn (by simpa using hr)
      rw [hr, KL.probTerms_sum hp hr0] at hv
      cases hv
      exact KL.real_nonneg hp

/-- The arrays of log probabilities of two densities with values `D` at the evaluation points. -/
noncomputable def logArrays (D : List (ℝ × ℝ)) : Pairs ℝ := D.map fun x => (XF.log (.fin x.1), XF.log (.fin x.2))

/-- The arrays of probabilities. -/
def probArrays (D : List (ℝ × ℝ)) : Pairs ℝ := D.map fun x => (.fin x.1, .fin x.2)

theorem logArrays_inl (D : List (ℝ × ℝ)) : (logArrays D).filter KL.logInlier =
    ((D.filter fun x => 0 < x.1 ∧ 0 < x.2).map fun x => (Real.log x.1, Real.log x.2)).map
      fun x => (XF.fin x.1, XF.fin x.2) := by
  have e : ∀ a : ℝ, XF.ltb .ninf (XF.log (.fin a)) = decide (0 < a) := by
    intro a
    rcases lt_trichotomy a 0 with h | h | h
    · simp [XF.log, h, XF.ltb, not_lt.2 h.le]
    · simp [XF.log, h, XF.ltb]
    · simp [XF.log, not_lt.2 h.le, h.ne', XF.ltb, h]
  unfold logArrays
  rw [List.filter_map, List.map_map]
  have e1 : (KL.logInlier ∘ fun x : ℝ × ℝ => (XF.log (.fin x.1), XF.log (.fin x.2))) =
      fun x => decide (0 < x.1 ∧ 0 < x.2) := by
    funext x
    simp [KL.logInlier, e]
  rw [e1]
  refine List.map_congr_left fun x hx => ?_
  have := (List.mem_filter.1 hx).2
  simp only [decide_eq_true_eq] at this
  simp [XF.log, not_lt.2 this.1.le, not_lt.2 this.2.le, this.1.ne', this.2.ne']

/-- The points where both densities are positive. -/
noncomputable def common (D : List (ℝ × ℝ)) : List (ℝ × ℝ) := D.filter fun x => 0 < x.1 ∧ 0 < x.2

theorem common_pos (D : List (ℝ × ℝ)) : KL.Pos (common D) := by
  intro x hx
  simpa using (List.mem_filter.1 hx).2

theorem kl_value (D : List (ℝ × ℝ)) (hD : D ≠ []) :
    KL.computeFromSamples (logArrays D) = .ok (.fin (KL.real (common D))) := by
  have hl : logArrays D ≠ [] := by simpa [logArrays] using hD
  simp only [KL.computeFromSamples, KL.computeFromLogProbs_eq _ hl, Except.map]
  rw [logArrays_inl, KL.logTerms_sum, List.map_map]
  congr 3
  conv_rhs => rw [← List.map_id (common D)]
  refine List.map_congr_left fun x hx => ?_
  have := common_pos D x hx
  simp [Real.exp_log this.1, Real.exp_log this.2]

theorem common_scale (D : List (ℝ × ℝ)) {a b : ℝ} (ha : 0 < a) (hb : 0 < b) :
    common (D.map fun x => (a * x.1, b * x.2)) = (common D).map fun x => (a * x.1, b * x.2) := by
  unfold common
  rw [List.filter_map]
  congr 2
  funext x
  simp [ha, hb]

/-- **C17** For two densities given by their values `D` at one or more evaluation points the KL value is a finite number; it
is 0 exactly when one is a constant multiple of the other on the points where both are positive; rescaling either density
does not change it. -/
theorem C17_kl_zero_iff_proportional (D : List (ℝ × ℝ)) (hD : D ≠ []) :
    ∃ v, KL.computeFromSamples (logArrays D) = .ok (.fin v) ∧
      (v = 0 ↔ ∃ c, 0 < c ∧ ∀ p q, (p, q) ∈ D → 0 < p → 0 < q → q = c * p) ∧
      (∀ a b, 0 < a → 0 < b → KL.computeFromSamples (logArrays (D.map fun x => (a * x.1, b * x.2))) = .ok (.fin v)) := by
  refine ⟨_, kl_value D hD, ?_, fun a b ha hb => ?_⟩
  · rw [KL.real_eq_zero (common_pos D)]
    constructor
    · rintro ⟨c, hc, h⟩
      exact ⟨c, hc, fun p q hm hp hq => h (p, q) (by simp [common, hm, hp, hq])⟩
    · rintro ⟨c, hc, h⟩
      refine ⟨c, hc, fun x hx => ?_⟩
      have := common_pos D x hx
      exact h x.1 x.2 (List.mem_filter.1 hx).1 this.1 this.2
  · rw [kl_value _ (by simpa using hD), common_scale D ha hb, KL.real_scale _ ha hb]

/-- Hypotheses met by a list with a zero density; the two densities are not proportional, so the value is not 0. -/
example : ∃ v, v ≠ 0 ∧ KL.computeFromSamples (logArrays [(1, 2), (0, 1), (1, 3)]) = .ok (.fin v) := by
  obtain ⟨v, h1, h2, _⟩ := C17_kl_zero_iff_proportional [((1:ℝ), (2:ℝ)), (0, 1), (1, 3)] (by simp)
  refine ⟨v, ?_, h1⟩
  rw [ne_eq, h2]
  rintro ⟨c, _, h⟩
  have a := h 1 2 (by simp) (by norm_num) (by norm_num)
  have b := h 1 3 (by simp) (by norm_num) (by norm_num)
  linarith

/-! ### C18 Jensen-Shannon -/

theorem jsd_symm (l : Pairs ℝ) : JSD.compute (l.map Prod.swap) = JSD.compute l := by
  by_cases hl : l = []
  · subst hl; rfl
  have hi : (JSD.inlier ∘ Prod.swap : XF ℝ × XF ℝ → Bool) = JSD.inlier := by
    funext x
    rw [Bool.eq_iff_iff, Function.comp_apply, JSD.inlier_iff, JSD.inlier_iff]
    exact And.comm
  rw [JSD.compute_eq l hl, JSD.compute_eq _ (by simpa using hl)]
  have hf : (l.map Prod.swap).filter JSD.inlier = (l.filter JSD.inlier).map Prod.swap := by
    rw [List.filter_map, hi]
  rw [hf]
  have ht : ∀ p q m : XF ℝ, JSD.term p q m = JSD.term q p m := fun p q m => by
    unfold JSD.term; rw [add_comm]
  simp only [List.map_map, Function.comp_def, Prod.fst_swap, Prod.snd_swap]
  congr 6
  funext x
  rw [ht, add_comm (x.2 / _)]
  congr 3
  refine List.map_congr_left fun x _ => ?_
  rw [add_comm]

/-- **C18** For arrays without `+inf` entries (NaN, `-inf`, zeros and negative numbers may occur and are skipped) the
Jensen-Shannon value is a finite number between 0 and 1, symmetric, invariant under rescaling of either density, and 0
exactly when the densities are proportional on the points where both are positive. Arrays with `+inf` at a common point
get the value 0 (`C18_infinite`). -/
theorem C18_jsd (l : Pairs ℝ) (hl : l ≠ []) (hi : ∀ x ∈ l, x.1 ≠ .pinf ∧ x.2 ≠ .pinf) :
    ∃ v, JSD.compute l = .ok (.fin v) ∧ 0 ≤ v ∧ v ≤ 1 ∧
      (v = 0 ↔ ∃ c, 0 < c ∧ ∀ p q, (XF.fin p, XF.fin q) ∈ l → 0 < p → 0 < q → q = c * p) ∧
      JSD.compute (l.map Prod.swap) = .ok (.fin v) ∧
      (∀ a b, 0 < a → 0 < b → JSD.compute (l.map fun x => (XF.fin a * x.1, XF.fin b * x.2)) = .ok (.fin v)) := by
  have hlog : 0 < Real.log 2 := Real.log_pos (by norm_num)
  obtain ⟨r, hp, hr⟩ := KL.eq_map_pos (l := l.filter JSD.inlier)
    (fun x hx => (JSD.inlier_iff x).1 (List.mem_filter.1 hx).2) (fun x hx => hi x (List.mem_filter.1 hx).1)
  have hv := JSD.compute_fin l hl hp hr
  obtain ⟨f1, f2, f3⟩ := JSD.real_facts hp
  refine ⟨_, hv, div_nonneg f1 hlog.le, (div_le_one hlog).2 f2, ?_, by rw [jsd_symm, hv], fun a b ha hb => ?_⟩
  · rw [div_eq_zero_iff, or_iff_left hlog.ne', f3]
    constructor
    · rintro ⟨c, hc, h⟩
      refine ⟨c, hc, fun p q hm h1 h2 => ?_⟩
      have : (XF.fin p, XF.fin q) ∈ l.filter JSD.inlier := by
        refine List.mem_filter.2 ⟨hm, (JSD.inlier_iff _).2 ⟨Or.inl ⟨p, h1, rfl⟩, Or.inl ⟨q, h2, rfl⟩⟩⟩
      rw [hr] at this
      obtain ⟨y, hy, e⟩ := List.mem_map.1 this
      simp only [Prod.mk.injEq, XF.fin.injEq] at e
      have := h y hy
      rw [e.1, e.2] at this
      exact this
    · rintro ⟨c, hc, h⟩
      refine ⟨c, hc, fun x hx => h x.1 x.2 ?_ (hp x hx).1 (hp x hx).2⟩
      have : (XF.fin x.1, XF.fin x.2) ∈ l.filter JSD.inlier := by
        rw [hr]; exact List.mem_map.2 ⟨x, hx, rfl⟩
      exact (List.mem_filter.1 this).1
  · have hs : ∀ (c : ℝ), 0 < c → ∀ y : XF ℝ, y ≠ .pinf →
        ((∃ a, 0 < a ∧ XF.fin c * y = .fin a) ∨ XF.fin c * y = .pinf) = ((∃ a, 0 < a ∧ y = .fin a) ∨ y = .pinf) := by
      intro c hc y hy
      cases y with
      | fin y => simp [hc]
      | pinf => exact absurd rfl hy
      | ninf =>
        have : (XF.fin c * XF.ninf : XF ℝ) = .ninf := by
          show XF.neg (XF.infMul c) = _
          simp [XF.infMul, hc, XF.neg]
        simp [this]
      | nan => simp
    have hin : (l.map fun x => (XF.fin a * x.1, XF.fin b * x.2)).filter JSD.inlier =
        ((r.map fun x => (a * x.1, b * x.2)).map fun x => (XF.fin x.1, XF.fin x.2)) := by
      rw [List.filter_map]
      have : l.filter (JSD.inlier ∘ fun x => (XF.fin a * x.1, XF.fin b * x.2)) = l.filter JSD.inlier := by
        apply List.filter_congr
        intro x hx
        rw [Bool.eq_iff_iff, Function.comp_apply, JSD.inlier_iff, JSD.inlier_iff]
        simp only [hs a ha _ (hi x hx).1, hs b hb _ (hi x hx).2]
      rw [this, hr]
      simp [List.map_map, Function.comp_def]
    rw [JSD.compute_fin _ (by simpa using hl) (r := r.map fun x => (a * x.1, b * x.2)) ?_ hin, JSD.real_scale _ ha hb]
    intro x hx
    obtain ⟨y, hy, rfl⟩ := List.mem_map.1 hx
    exact ⟨mul_pos ha (hp y hy).1, mul_pos hb (hp y hy).2⟩

/-- The hypotheses allow arrays with NaN and zeros. -/
example : ∀ x ∈ ([(.fin 1, .fin 2), (.nan, .fin 1), (.fin 0, .ninf)] : Pairs ℝ), x.1 ≠ XF.pinf ∧ x.2 ≠ XF.pinf := by
  simp

/-- An infinite density value at a common point makes the value 0, whatever the rest of the arrays is. -/
theorem C18_infinite (l : Pairs ℝ) (hb : ∃ x ∈ l, JSD.inlier x = true ∧ (x.1 = .pinf ∨ x.2 = .pinf)) :
    JSD.compute l = .ok (.fin 0) := by
  obtain ⟨x, hx, hin, h⟩ := hb
  exact JSD.compute_bad l ⟨x, List.mem_filter.2 ⟨hx, hin⟩, h⟩

/-- Such arrays exist. -/
example : ∃ x ∈ ([(.pinf, .fin 2), (.fin 1, .fin 1)] : Pairs ℝ), JSD.inlier x = true ∧ (x.1 = .pinf ∨ x.2 = .pinf) :=
  ⟨(.pinf, .fin 2), by simp, by simp [JSD.inlier, XF.ltb, XF.isNan], Or.inl rfl⟩

/-! ### C19 disjoint supports -/

/-- **C19, refuted**: for densities that vanish at complementary points, the KL divergence computed from samples is 0, not
`+inf`, and the Jensen-Shannon value is 0, not 1, for every such pair of arrays. -/
theorem C19_refuted (D : List (ℝ × ℝ)) (hD : D ≠ []) (h : ∀ x ∈ D, x.1 = 0 ∨ x.2 = 0) :
    KL.computeFromSamples (logArrays D) = .ok (.fin 0) ∧ JSD.compute (probArrays D) = .ok (.fin 0) := by
  have hc : common D = [] := by
    rw [common, List.filter_eq_nil_iff]
    intro x hx
    rcases h x hx with h | h <;> simp [h]
  constructor
  · rw [kl_value D hD, hc]
    simp [KL.real]
  · have hn : (probArrays D).filter JSD.inlier = [] := by
      rw [List.filter_eq_nil_iff]
      intro x hx
      obtain ⟨y, hy, rfl⟩ := List.mem_map.1 hx
      rcases h y hy with h | h <;> simp [JSD.inlier, XF.ltb, h]
    rw [JSD.compute_fin _ (by simpa [probArrays] using hD) (r := []) (by simp [KL.Pos]) (by simpa using hn)]
    simp [JSD.real]

/-- Two densities with disjoint supports on two points. -/
example : ∀ x ∈ [((1:ℝ), (0:ℝ)), (0, 1)], x.1 = 0 ∨ x.2 = 0 := by simp

/-- **C19** (part): the probability version of the KL divergence does return `+inf` for disjoint supports. Missing: the
version that `compute` uses and the Jensen-Shannon divergence, see `C19_refuted`. -/
theorem C19_partial (D : List (ℝ × ℝ)) (hD : D ≠ []) (h : ∀ x ∈ D, x.1 = 0 ∨ x.2 = 0) :
    KL.computeFromProbs (probArrays D) = .ok (.inf, probArrays D) := by
  apply KL.computeFromProbs_none _ (by simpa [probArrays] using hD)
  rw [List.filter_eq_nil_iff]
  intro x hx
  obtain ⟨y, hy, rfl⟩ := List.mem_map.1 hx
  rcases h y hy with h | h <;> simp [KL.inlier, XF.ltb, h]

/-! ### C76 repeatability -/

/-- **C76** Although `compute_from_log_probs` overwrites the arrays of its caller, calling it again on the overwritten
arrays returns the same terms and changes nothing more (arrays without `+inf`). -/
theorem C76_log_probs_repeatable (l : Pairs ℝ) (hi : ∀ x ∈ l, x.1 ≠ .pinf ∧ x.2 ≠ .pinf)
    (t : List (XF ℝ)) (l' : Pairs ℝ) (h : KL.computeFromLogProbs l = .ok (t, l')) :
    KL.computeFromLogProbs l' = .ok (t, l') := by
  by_cases hl : l = []
  · subst hl; simp [KL.computeFromLogProbs] at h
  rw [KL.computeFromLogProbs_eq l hl] at h
  simp only [Except.ok.injEq, Prod.mk.injEq] at h
  obtain ⟨ht, hl'⟩ := h
  obtain ⟨r, hr⟩ := KL.eq_map_fin₂ (KL.inl_ne (l := l)) (fun x hx => hi x (List.mem_filter.1 hx).1)
  by_cases hr0 : r = []
  · subst hr0
    have hn : l.filter KL.logInlier = [] := by simpa using hr
    have : l' = l := by
      rw [← hl']
      unfold KL.normLogs
      conv_rhs => rw [← List.map_id l]
      refine List.map_congr_left fun x hx => ?_
      rw [List.filter_eq_nil_iff] at hn
      simp [hn x hx]
    rw [this, KL.computeFromLogProbs_eq l hl, ht]
    rw [hl', this]
  have e1 : ((l.filter KL.logInlier).map Prod.fst) = (r.map Prod.fst).map XF.fin := by
    rw [hr]; simp [List.map_map, Function.comp_def]
  have e2 : ((l.filter KL.logInlier).map Prod.snd) = (r.map Prod.snd).map XF.fin := by
    rw [hr]; simp [List.map_map, Function.comp_def]
  have hz1 := logaddexpReduce_fin (l := r.map Prod.fst) (by simpa using hr0)
  have hz2 := logaddexpReduce_fin (l := r.map Prod.snd) (by simpa using hr0)
  rw [← e1] at hz1
  rw [← e2] at hz2
  set zp := Real.log ((r.map Prod.fst).map Real.exp).sum
  set zq := Real.log ((r.map Prod.snd).map Real.exp).sum
  have hnorm : KL.normLogs l = l.map fun x => if KL.logInlier x then (x.1 - .fin zp, x.2 - .fin zq) else x := by
    unfold KL.normLogs
    simp only [hz1, hz2]
  -- entries keep their status
  have hstat : ∀ x : XF ℝ × XF ℝ, KL.logInlier (if KL.logInlier x then (x.1 - .fin zp, x.2 - .fin zq) else x) =
      KL.logInlier x := by
    have hsub : ∀ (a : XF ℝ) (z : ℝ), XF.ltb .ninf (a - .fin z) = XF.ltb .ninf a := by
      intro a z
      cases a <;> rfl
    intro x
    by_cases hx : KL.logInlier x = true
    · rw [if_pos hx]
      simp only [KL.logInlier, hsub]
    · rw [if_neg hx]
  have hfil : (KL.normLogs l).filter KL.logInlier =
      (r.map fun x => (x.1 - zp, x.2 - zq)).map fun x => (XF.fin x.1, XF.fin x.2) := by
    rw [hnorm, List.filter_map]
    have : (KL.logInlier ∘ fun x : XF ℝ × XF ℝ => if KL.logInlier x then (x.1 - .fin zp, x.2 - .fin zq) else x) =
        KL.logInlier := funext hstat
    rw [this]
    have h2 : ∀ x ∈ l.filter KL.logInlier, (if KL.logInlier x then (x.1 - .fin zp, x.2 - .fin zq) else x) =
        (x.1 - .fin zp, x.2 - .fin zq) := fun x hx => by simp [(List.mem_filter.1 hx).2]
    rw [List.map_congr_left h2, hr]
    simp [List.map_map, Function.comp_def]
  have hzero : ∀ (f : ℝ × ℝ → ℝ), logaddexpReduce ((r.map fun x => f x - Real.log ((r.map f).map Real.exp).sum).map XF.fin) =
      .fin 0 := by
    intro f
    rw [logaddexpReduce_fin (by simpa using hr0)]
    congr 1
    have hpos : 0 < ((r.map f).map Real.exp).sum := sum_pos_of_ne (by
      intro x hx; obtain ⟨y, _, rfl⟩ := List.mem_map.1 hx; exact Real.exp_pos _) (by simpa using hr0)
    have : ((r.map fun x => f x - Real.log ((r.map f).map Real.exp).sum).map Real.exp).sum = 1 := by
      rw [List.map_map]
      have h3 : ∀ x ∈ r, (Real.exp ∘ fun x => f x - Real.log ((r.map f).map Real.exp).sum) x =
          Real.exp (f x) / (r.map fun x => Real.exp (f x)).sum := by
        intro x _
        rw [Function.comp_apply, Real.exp_sub, Real.exp_log hpos, List.map_map]
        rfl
      rw [List.map_congr_left h3]
      apply KL.sum_div_self r (fun x => Real.exp (f x))
      simp only [List.map_map, Function.comp_def] at hpos
      exact hpos.ne'
    rw [this, Real.log_one]
  have f1 : (((r.map fun x => (x.1 - zp, x.2 - zq)).map fun x => (XF.fin x.1, XF.fin x.2)).map Prod.fst) =
      (r.map fun x => x.1 - zp).map XF.fin := by simp [List.map_map, Function.comp_def]
  have f2 : (((r.map fun x => (x.1 - zp, x.2 - zq)).map fun x => (XF.fin x.1, XF.fin x.2)).map Prod.snd) =
      (r.map fun x => x.2 - zq).map XF.fin := by simp [List.map_map, Function.comp_def]
  have sub0 : ∀ a : XF ℝ, a - .fin 0 = a := by
    intro a
    cases a <;> first | rfl | simp
  have hl'n : l' ≠ [] := by
    rw [← hl', hnorm]; simpa using hl
  have z1' : logaddexpReduce ((l'.filter KL.logInlier).map Prod.fst) = .fin 0 := by
    rw [← hl', hfil, f1]; exact hzero Prod.fst
  have z2' : logaddexpReduce ((l'.filter KL.logInlier).map Prod.snd) = .fin 0 := by
    rw [← hl', hfil, f2]; exact hzero Prod.snd
  rw [KL.computeFromLogProbs_eq l' hl'n]
  congr 2
  · rw [z1', z2', ← ht, hz1, hz2, ← hl', hfil, hr]
    simp [List.map_map, Function.comp_def]
  · unfold KL.normLogs
    simp only [z1', z2', sub0]
    simp

/-- The hypotheses hold for arrays with a NaN and a zero density. -/
example : ∃ t l', KL.computeFromLogProbs [(.fin 1, .fin 2), (.nan, .fin 1), (.ninf, .fin 0), (.fin 0, .fin 0)] = .ok (t, l') := by
  rw [KL.computeFromLogProbs_eq _ (by simp)]
  exact ⟨_, _, rfl⟩

/-- **C76** for `compute_from_probs`. -/
theorem C76_probs_repeatable (l : Pairs ℝ) (hi : ∀ x ∈ l, x.1 ≠ .pinf ∧ x.2 ≠ .pinf)
    (t : KL.ProbRes) (l' : Pairs ℝ) (h : KL.computeFromProbs l = .ok (t, l')) :
    KL.computeFromProbs l' = .ok (t, l') := by
  by_cases hl : l = []
  · subst hl; simp [KL.computeFromProbs] at h
  obtain ⟨r, hp, hr⟩ := KL.eq_map_pos (l := l.filter KL.inlier)
    (fun x hx => (KL.inlier_iff x).1 (List.mem_filter.1 hx).2) (fun x hx => hi x (List.mem_filter.1 hx).1)
  by_cases hr0 : r = []
  · subst hr0
    have hn : l.filter KL.inlier = [] := by simpa using hr
    have h1 := KL.computeFromProbs_none l hl hn
    rw [h1] at h
    cases h
    exact h1
  have h1 := hp.sum_fst hr0
  have h2 := hp.sum_snd hr0
  have s1 : ((l.filter KL.inlier).map Prod.fst).sum = .fin (r.map Prod.fst).sum := by rw [hr, KL.fst_finPair]
  have s2 : ((l.filter KL.inlier).map Prod.snd).sum = .fin (r.map Prod.snd).sum := by rw [hr, KL.snd_finPair]
  rw [KL.computeFromProbs_eq l hl (by rw [s1]; simpa [XF.ltb] using h1) (by rw [s2]; simpa [XF.ltb] using h2)] at h
  simp only [Except.ok.injEq, Prod.mk.injEq, s1, s2] at h
  obtain ⟨ht, hl'⟩ := h
  set sp := (r.map Prod.fst).sum
  set sq := (r.map Prod.snd).sum
  have hl'n : l' ≠ [] := by rw [← hl']; simpa using hl
  have hstat : ∀ x ∈ l, KL.inlier (if KL.inlier x then (x.1 / .fin sp, x.2 / .fin sq) else x) = KL.inlier x := by
    intro x hx
    by_cases hin : KL.inlier x = true
    · rw [if_pos hin, hin]
      have := (KL.inlier_iff x).1 hin
      have hx' := hi x hx
      simp only [hx'.1, hx'.2, or_false] at this
      obtain ⟨⟨a, ha, e1⟩, b, hb, e2⟩ := this
      rw [KL.inlier_iff]
      simp only [e1, e2, XF.fin_div_ne _ _ h1.ne', XF.fin_div_ne _ _ h2.ne']
      exact ⟨Or.inl ⟨_, div_pos ha h1, rfl⟩, Or.inl ⟨_, div_pos hb h2, rfl⟩⟩
    · rw [if_neg hin]
  have hfil : l'.filter KL.inlier = (r.map fun x => (x.1 / sp, x.2 / sq)).map fun x => (XF.fin x.1, XF.fin x.2) := by
    rw [← hl', List.filter_map]
    have e : l.filter (KL.inlier ∘ fun x => if KL.inlier x then (x.1 / .fin sp, x.2 / .fin sq) else x) =
        l.filter KL.inlier := List.filter_congr fun x hx => hstat x hx
    rw [e]
    have h3 : ∀ x ∈ l.filter KL.inlier, (if KL.inlier x then (x.1 / .fin sp, x.2 / .fin sq) else x) =
        (x.1 / .fin sp, x.2 / .fin sq) := fun x hx => by simp [(List.mem_filter.1 hx).2]
    rw [List.map_congr_left h3, hr]
    simp [List.map_map, Function.comp_def, XF.fin_div_ne _ _ h1.ne', XF.fin_div_ne _ _ h2.ne']
  have s1' : ((l'.filter KL.inlier).map Prod.fst).sum = .fin 1 := by
    rw [hfil, KL.fst_finPair, List.map_map]
    congr 1
    exact KL.sum_div_self r Prod.fst h1.ne'
  have s2' : ((l'.filter KL.inlier).map Prod.snd).sum = .fin 1 := by
    rw [hfil, KL.snd_finPair, List.map_map]
    congr 1
    exact KL.sum_div_self r Prod.snd h2.ne'
  rw [KL.computeFromProbs_eq l' hl'n (by rw [s1']; simp [XF.ltb]) (by rw [s2']; simp [XF.ltb])]
  simp only [s1', s2']
  congr 2
  · rw [← ht, hfil, hr]
    simp [List.map_map, Function.comp_def, XF.fin_div_ne _ _ h1.ne', XF.fin_div_ne _ _ h2.ne',
      XF.fin_div_ne _ _ (one_ne_zero (α := ℝ))]
  · conv_rhs => rw [← List.map_id l']
    refine List.map_congr_left fun x hx => ?_
    by_cases hin : KL.inlier x = true
    · have hm : x ∈ l'.filter KL.inlier := List.mem_filter.2 ⟨hx, hin⟩
      rw [hfil] at hm
      obtain ⟨y, _, rfl⟩ := List.mem_map.1 hm
      simp [XF.fin_div_ne _ _ (one_ne_zero (α := ℝ))]
    · simp [hin]

/-- The hypotheses hold for arrays with a zero density. -/
example : ∃ t l', KL.computeFromProbs [(.fin 1, .fin 2), (.fin 0, .fin 1)] = .ok (t, l') :=
  ⟨_, _, KL.computeFromProbs_eq _ (by simp) (by simp [KL.inlier, XF.ltb]) (by simp [KL.inlier, XF.ltb])⟩

/-! ### C20 expected value MSE -/

section EV
variable {K : Type*} [Field K] [LinearOrder K] [IsStrictOrderedRing K] {d : ℕ}

/-- An evaluation point with the (finite) values of both densities. -/
abbrev EVPoint (K : Type*) (d : ℕ) := (Fin d → K) × K × K

/-- The metric on the points `R`. -/
def evmse (R : List (EVPoint K d)) : XF K := EVMSE.compute (R.map fun r => ⟨r.1, .fin r.2.1, .fin r.2.2⟩)

/-- Mean of the points under the weights `w`. -/
def weightedMean (R : List (EVPoint K d)) (w : EVPoint K d → K) (i : Fin d) : K :=
  (R.map fun r => r.1 i * w r).sum / (R.map w).sum

theorem evmse_expected (R : List (EVPoint K d)) (w : EVPoint K d → K) (h : (R.map w).sum ≠ 0) (i : Fin d) :
    EVMSE.expected (R.map Prod.fst) (R.map fun r => XF.fin (w r)) i = .fin (weightedMean R w i) := by
  unfold EVMSE.expected
  have hs : (R.map fun r => XF.fin (w r)).sum = XF.fin (R.map w).sum := by
    rw [← XF.sum_map_fin, List.map_map]; rfl
  rw [hs, KL.zipWith_map_self]
  simp only [XF.fin_div_ne _ _ h, XF.fin_mul]
  have : (R.map fun r => XF.fin (r.1 i * (w r / (R.map w).sum))).sum =
      XF.fin (R.map fun r => r.1 i * (w r / (R.map w).sum)).sum := by
    rw [← XF.sum_map_fin, List.map_map]; rfl
  rw [this]
  congr 1
  unfold weightedMean
  rw [div_eq_mul_inv, ← List.sum_map_mul_right]
  congr 1
  refine List.map_congr_left fun r _ => ?_
  rw [div_eq_mul_inv, mul_assoc]

theorem evmse_eq (R : List (EVPoint K d)) (hp : (R.map fun r => r.2.1).sum ≠ 0) (hq : (R.map fun r => r.2.2).sum ≠ 0) :
    evmse R = .fin (∑ i, (weightedMean R (fun r => r.2.1) i - weightedMean R (fun r => r.2.2) i) ^ 2) := by
  unfold evmse EVMSE.compute
  simp only [List.map_map]
  have e1 := evmse_expected R (fun r => r.2.1) hp
  have e2 := evmse_expected R (fun r => r.2.2) hq
  have a1 : (EVMSE.Row.x ∘ fun r : EVPoint K d => (⟨r.1, .fin r.2.1, .fin r.2.2⟩ : EVMSE.Row K d)) = Prod.fst := rfl
  have a2 : (EVMSE.Row.p ∘ fun r : EVPoint K d => (⟨r.1, .fin r.2.1, .fin r.2.2⟩ : EVMSE.Row K d)) =
    fun r => XF.fin r.2.1 := rfl
  have a3 : (EVMSE.Row.q ∘ fun r : EVPoint K d => (⟨r.1, .fin r.2.1, .fin r.2.2⟩ : EVMSE.Row K d)) =
    fun r => XF.fin r.2.2 := rfl
  simp only [a1, a2, a3, e1, e2, XF.fin_sub, XF.fin_mul]
  have : ∀ (s : Finset (Fin d)) (f : Fin d → K), ∑ i ∈ s, XF.fin (f i) = XF.fin (∑ i ∈ s, f i) := by
    intro s f
    classical
    induction s using Finset.induction_on with
    | empty => rfl
    | insert a s ha ih => rw [Finset.sum_insert ha, Finset.sum_insert ha, ih, XF.fin_add]
  rw [this]
  congr 1
  exact Finset.sum_congr rfl fun i _ => (sq _).symm

/-- **C20** For evaluation points `R` at which both densities have a positive sum, the metric is the squared distance
between the two weighted means, nonnegative, 0 exactly when the means agree (in particular for proportional
densities), symmetric, invariant under rescaling of either density and under translation of the points. -/
theorem C20_evmse (R : List (EVPoint K d)) (hp : 0 < (R.map fun r => r.2.1).sum) (hq : 0 < (R.map fun r => r.2.2).sum) :
    ∃ v, evmse R = .fin v ∧
      v = ∑ i, ((R.map fun r => r.1 i * r.2.1).sum / (R.map fun r => r.2.1).sum -
        (R.map fun r => r.1 i * r.2.2).sum / (R.map fun r => r.2.2).sum) ^ 2 ∧
      0 ≤ v ∧
      ((∃ c, ∀ r ∈ R, r.2.2 = c * r.2.1) → v = 0) ∧
      evmse (R.map fun r => (r.1, r.2.2, r.2.1)) = .fin v ∧
      (∀ a b, 0 < a → 0 < b → evmse (R.map fun r => (r.1, a * r.2.1, b * r.2.2)) = .fin v) ∧
      (∀ t : Fin d → K, evmse (R.map fun r => (r.1 + t, r.2.1, r.2.2)) = .fin v) := by
  refine ⟨_, evmse_eq R hp.ne' hq.ne', rfl, Finset.sum_nonneg fun i _ => sq_nonneg _, ?_, ?_, ?_, ?_⟩
  · rintro ⟨c, hc⟩
    have e0 : (R.map fun r => r.2.2).sum = c * (R.map fun r => r.2.1).sum := by
      rw [← List.sum_map_mul_left]; congr 1; exact List.map_congr_left hc
    have hc0 : c ≠ 0 := by rintro rfl; rw [e0, zero_mul] at hq; exact lt_irrefl _ hq
    apply Finset.sum_eq_zero
    intro i _
    have e1 : (R.map fun r => r.1 i * r.2.2).sum = c * (R.map fun r => r.1 i * r.2.1).sum := by
      rw [← List.sum_map_mul_left]; congr 1
      exact List.map_congr_left fun r hr => by rw [hc r hr]; ring
    unfold weightedMean
    rw [e0, e1, mul_div_mul_left _ _ hc0, sub_self]
    ring
  · rw [evmse_eq _ (by simpa [List.map_map, Function.comp_def] using hq.ne')
      (by simpa [List.map_map, Function.comp_def] using hp.ne')]
    congr 1
    refine Finset.sum_congr rfl fun i _ => ?_
    simp only [weightedMean, List.map_map, Function.comp_def]
    ring
  · intro a b ha hb
    rw [evmse_eq _ (by simp only [List.map_map, Function.comp_def, List.sum_map_mul_left]; exact (mul_pos ha hp).ne')
      (by simp only [List.map_map, Function.comp_def, List.sum_map_mul_left]; exact (mul_pos hb hq).ne')]
    congr 1
    refine Finset.sum_congr rfl fun i _ => ?_
    simp only [weightedMean, List.map_map, Function.comp_def, mul_left_comm _ a, mul_left_comm _ b, List.sum_map_mul_left,
      mul_div_mul_left _ _ ha.ne', mul_div_mul_left _ _ hb.ne']
  · intro t
    rw [evmse_eq _ (by simpa [List.map_map, Function.comp_def] using hp.ne')
      (by simpa [List.map_map, Function.comp_def] using hq.ne')]
    congr 1
    refine Finset.sum_congr rfl fun i _ => ?_
    have key : ∀ w : EVPoint K d → K, (R.map w).sum ≠ 0 →
        (R.map fun r => (r.1 i + t i) * w r).sum / (R.map w).sum = (R.map fun r => r.1 i * w r).sum / (R.map w).sum + t i := by
      intro w hw
      simp only [add_mul, List.sum_map_add, List.sum_map_mul_left]
      field_simp
    simp only [weightedMean, List.map_map, Function.comp_def, Pi.add_apply]
    rw [key (fun r => r.2.1) hp.ne', key (fun r => r.2.2) hq.ne']
    ring

end EV

/-- Two points of the plane with positive sums; the value is not 0. -/
example : evmse (K := ℚ) (d := 2) [(![0, 0], 1, 0), (![2, 1], 1, 2)] = .fin (5/4) := by
  rw [evmse_eq _ (by norm_num) (by norm_num)]
  simp [weightedMean, Fin.sum_univ_two]
  norm_num

/-! ### C21, C22 performance metrics -/

section Perf
variable {K : Type*} [Field K]

/-- One event of a history in which every `post` directly follows its `pre`: a completed measurement, a `pre` that is
never completed, or a `reset`. -/
inductive PerfEvent (K : Type*) where
  | measure (start stop : K)
  | pre (start : K)
  | reset

/-- The calls made by an event on the elapsed time metric. -/
def ElapsedTime.event (s : ElapsedTime K) : PerfEvent K → ElapsedTime K
  | .measure a b => (s.pre a).post b
  | .pre a => s.pre a
  | .reset => s.reset

/-- The measurements after the last reset: a reset empties the list. -/
def sinceReset (h : List (PerfEvent K)) : List (K × K) :=
  h.foldl (fun acc e => match e with
    | .measure a b => acc ++ [(a, b)]
    | .pre _ => acc
    | .reset => []) []

/-- **C21** For every history and every clock, the reported time is the sum over the measurements since the last reset of
`stop - start - overhead`, where the overhead is the mean of the calibration intervals of the constructor minus the
sleeping time. -/
theorem C21_elapsed_time (readings : List (K × K)) (delta : K) (h : List (PerfEvent K)) :
    (h.foldl ElapsedTime.event (ElapsedTime.new readings delta)).compute =
      ((sinceReset h).map fun m => m.2 - m.1 -
        ((readings.map fun r => r.2 - r.1).sum / (readings.length : K) - delta)).sum := by
  have cal : ∀ (rd : List (K × K)) (s : ElapsedTime K), s.overhead = 0 → s.value = 0 →
      (ElapsedTime.calibrate s rd).2 = rd.map (fun r => r.2 - r.1) ∧ (ElapsedTime.calibrate s rd).1.value = 0 := by
    intro rd
    induction rd with
    | nil => intro s _ hv; exact ⟨rfl, hv⟩
    | cons r rd ih =>
      intro s ho hv
      obtain ⟨a, b⟩ := r
      have := ih ((s.pre a).post b).reset ho rfl
      simp only [ElapsedTime.calibrate, List.map_cons]
      refine ⟨?_, this.2⟩
      rw [this.1]
      simp [ElapsedTime.compute, ElapsedTime.post, ElapsedTime.pre, hv, ho]
  have gen : ∀ (h : List (PerfEvent K)) (s : ElapsedTime K) (acc : List (K × K)),
      s.value = (acc.map fun m => m.2 - m.1 - s.overhead).sum →
      (h.foldl ElapsedTime.event s).compute =
        ((h.foldl (fun acc e => match e with
          | .measure a b => acc ++ [(a, b)]
          | .pre _ => acc
          | .reset => []) acc).map fun m => m.2 - m.1 - s.overhead).sum := by
    intro h
    induction h with
    | nil => intro s acc hs; exact hs
    | cons e es ih =>
      intro s acc hs
      rw [List.foldl_cons, List.foldl_cons]
      have ho : (s.event e).overhead = s.overhead := by cases e <;> rfl
      rw [← ho]
      apply ih
      rw [ho]
      cases e with
      | measure a b => simp [ElapsedTime.event, ElapsedTime.pre, ElapsedTime.post, hs]
      | pre a => exact hs
      | reset => rfl
  obtain ⟨c1, c2⟩ := cal readings ⟨0, 0, 0, 0⟩ rfl rfl
  have hv : (ElapsedTime.new readings delta).value = 0 := c2
  have ho : (ElapsedTime.new readings delta).overhead =
      (readings.map fun r => r.2 - r.1).sum / (readings.length : K) - delta := by
    show (ElapsedTime.calibrate ⟨0, 0, 0, 0⟩ readings).2.sum / _ - _ = _
    rw [c1]
  rw [gen h _ [] (by simpa using hv), ho]
  rfl

/-- The specification on a history with two measurements after a reset. -/
example : sinceReset (K := ℚ) [.measure 0 5, .reset, .measure 1 3, .pre 4, .measure 5 8] = [(1, 3), (5, 8)] := by
  rfl

/-- **C22** (part) After a reset the elapsed time metric reports what a freshly built one (with the same overhead)
reports, whatever happened before and whatever follows; the memory metric does so as soon as one measurement was
completed after the reset. Missing: the memory metric right after the reset, see `C22_refuted`. -/
theorem C22_partial :
    (∀ (readings : List (K × K)) (delta : K) (past future : List (PerfEvent K)),
      ((past ++ [PerfEvent.reset] ++ future).foldl ElapsedTime.event (ElapsedTime.new readings delta)).compute =
        (future.foldl ElapsedTime.event (ElapsedTime.new readings delta)).compute) ∧
    (∀ (s : MemoryUsage K) (m : K × K) (ms : List (K × K)),
      ((m :: ms).foldl (fun s x => (s.pre x.1).post x.2) s.reset).compute =
        ((m :: ms).foldl (fun s x => (s.pre x.1).post x.2) MemoryUsage.new).compute) := by
  refine ⟨fun readings delta past future => ?_, fun s m ms => ?_⟩
  · rw [C21_elapsed_time, C21_elapsed_time]
    have : sinceReset (past ++ [PerfEvent.reset] ++ future) = sinceReset future := by
      simp [sinceReset, List.foldl_append]
    rw [this]
  · simp only [List.foldl_cons]
    rfl

/-- **C22, refuted** for the memory metric: after `pre`, `post`, `reset` the old value is still reported. -/
theorem C22_refuted : ∃ s : MemoryUsage ℚ, s = ((MemoryUsage.new.pre 0).post 5000000).reset ∧
    s.compute = 5 ∧ (MemoryUsage.new : MemoryUsage ℚ).compute = 0 :=
  ⟨_, rfl, by norm_num [MemoryUsage.new, MemoryUsage.pre, MemoryUsage.post, MemoryUsage.reset, MemoryUsage.compute], rfl⟩

end Perf

end Verif
