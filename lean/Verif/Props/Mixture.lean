import Verif.Proof.Mixture
import Mathlib.MeasureTheory.Integral.Bochner.Basic
import Mathlib.MeasureTheory.Measure.Dirac
import Mathlib.Tactic.NormNum

/-!
# Properties C01-C05: mixture models
-/

set_option linter.unusedSectionVars false
set_option autoImplicit false

namespace Verif

section
variable {K : Type*} [Field K] [LinearOrder K] [IsStrictOrderedRing K]

/-- Weights the caller is expected to provide: some positive finite entry and no `+inf`
(NaN, `-inf`, zero and negative entries are allowed). -/
def UsableWeights (ws : List (XF K)) : Prop := (∃ x, 0 < x ∧ XF.fin x ∈ ws) ∧ XF.pinf ∉ ws

/-- An entry `set_weights` must discard: NaN, `-inf` or a number `<= 0`. -/
def InvalidWeight (w : XF K) : Prop := w = .nan ∨ w = .ninf ∨ ∃ x ≤ 0, w = .fin x

/-- **C01** Stored mixture weights form a probability vector, invalid entries get weight 0 and valid entries keep
their ratios. -/
theorem C01_set_weights_normalises (ws : List (XF K)) (hu : UsableWeights ws) :
    ∃ out : List K, setWeights ws.length ws = .ok (out.map .fin) ∧ IsProbVec out ∧
      ∃ hlen : out.length = ws.length,
        (∀ i (hi : i < ws.length), InvalidWeight ws[i] → out[i] = 0) ∧
        (∀ i j (hi : i < ws.length) (hj : j < ws.length) x y, 0 < x → 0 < y →
          ws[i] = .fin x → ws[j] = .fin y → 0 < out[i] ∧ out[i] * y = out[j] * x) := by
  obtain ⟨hpos, hinf⟩ := hu
  have hs := sum_clean_pos ws hpos
  refine ⟨_, setWeights_eq ws hpos hinf, ⟨?_, ?_⟩, by simp, ?_, ?_⟩
  · intro w hw
    obtain ⟨a, _, rfl⟩ := List.mem_map.mp hw
    exact div_nonneg (cleanVal_nonneg a) hs.le
  · rw [sum_map_div, div_self hs.ne']
  · intro i hi h
    rw [List.getElem_map]
    rcases h with h | h | ⟨x, hx, h⟩ <;> rw [h] <;> simp [cleanVal]
    left; intro h1; exact absurd h1 (not_lt.mpr hx)
  · intro i j hi hj x y hx hy h1 h2
    simp only [List.getElem_map, h1, h2, cleanVal, hx, hy, if_true]
    refine ⟨div_pos hx hs, ?_⟩
    field_simp

/-- C01 is not vacuous: NaN, negative, zero and positive weights. -/
example : UsableWeights [XF.nan, XF.fin (-2 : ℚ), XF.fin 0, XF.fin 3, XF.ninf, XF.fin 1] :=
  ⟨⟨3, by norm_num, by simp⟩, by simp⟩
example : setWeights 6 [XF.nan, XF.fin (-2 : ℚ), XF.fin 0, XF.fin 3, XF.ninf, XF.fin 1]
    = .ok [.fin 0, .fin 0, .fin 0, .fin (3/4), .fin 0, .fin (1/4)] := by decide +kernel

/-- A wrong number of weights is refused. -/
theorem C01_length_mismatch (n : ℕ) (ws : List (XF K)) (h : n ≠ ws.length) :
    setWeights n ws = .error .assertion := by
  simp [setWeights, h]

/-- **C02** (negation) The announced fallback to equal weights does not happen: two components with zero weights
keep weights `[0, 0]` instead of `[1/2, 1/2]`. -/
theorem C02_refuted :
    ¬ ∀ ws : List (XF ℚ), ws ≠ [] → (∀ w ∈ ws, InvalidWeight w) →
      setWeights ws.length ws = .ok (List.replicate ws.length (.fin (1 / (ws.length : ℚ)))) := by
  intro h
  have h1 := h [.fin 0, .fin 0] (by simp) (by
    intro w hw
    right; right
    exact ⟨0, le_rfl, by simpa using hw⟩)
  revert h1
  decide +kernel

theorem invalid_bad (w : XF K) (h : InvalidWeight w) : badWeight w = true := by
  rcases h with rfl | rfl | ⟨x, hx, rfl⟩ <;> simp [badWeight, XF.isNan, XF.leb]
  exact hx

/-- **C02** (what holds) With only invalid weights every component ends up with weight exactly 0, the density is 0
at every point, and sampling always selects the last component. Missing with respect to C02: the equal weights. -/
theorem C02_partial (ws : List (XF ℝ)) (hne : ws ≠ []) (h : ∀ w ∈ ws, InvalidWeight w) :
    ∃ stored, setWeights ws.length ws = .ok stored ∧ stored = List.replicate ws.length (.fin 0) ∧
      (∀ {X : Type} (models : List (X → XF ℝ)) (data : List X), models.length = ws.length →
        (∀ f ∈ models, ∀ x, IsLogDensity (f x)) →
        Mixture.prob ⟨models, stored⟩ data = data.map fun _ => .fin 0) ∧
      (∀ {Y : Type} (bern : ℕ → ℕ → ℝ → Bool) (draw : ℕ → ℕ → Y) (n : ℕ),
        (∀ k j p, p ≤ 0 → bern k j p = false) →
        mixtureSample ws.length stored bern draw n
          = .ok ((List.range n).map fun k => draw (ws.length - 1) k)) := by
  refine ⟨_, setWeights_zero ws fun w hw => invalid_bad w (h w hw), rfl, ?_, ?_⟩
  · intro X models data hl hm
    have : (List.replicate ws.length (XF.fin (0:ℝ))) = (List.replicate ws.length (0:ℝ)).map .fin := by simp
    rw [this, Mixture.prob_eq models _ hm]
    apply List.map_congr_left
    intro x _
    congr 1
    exact mixDensity_zero models _ x
  · intro Y bern draw n hb
    have e : (List.replicate ws.length (XF.fin (0:ℝ))) = (List.replicate ws.length (0:ℝ)).map .fin := by simp
    obtain ⟨m, hm⟩ : ∃ m, ws.length = m + 1 := ⟨ws.length - 1, by
      have := List.length_pos_iff.mpr hne; omega⟩
    unfold mixtureSample
    rw [e, finites_map_fin]
    simp only
    apply mapM_except_ok
    intro k _
    unfold multinomial1
    rw [hm, multinomialGo_zero (bern k) (hb k), argmaxNat_oneHot _ _ (by omega)]
    simp

/-- The hypotheses of `C02_partial` are met by, e.g., one NaN, one zero and one negative weight. -/
example : ∀ w ∈ [XF.nan, XF.fin (0:ℝ), XF.fin (-1)], InvalidWeight w := by
  intro w hw
  simp only [List.mem_cons, List.not_mem_nil, or_false] at hw
  rcases hw with rfl | rfl | rfl
  · exact Or.inl rfl
  · exact Or.inr (Or.inr ⟨0, le_rfl, rfl⟩)
  · exact Or.inr (Or.inr ⟨-1, by norm_num, rfl⟩)

/-- **C05** Sampling returns n points, each one drawn from a component whose weight, as given by the caller,
is a positive number. `bern` are the outcomes of the random generator: impossible events do not happen and
sure events happen. -/
theorem C05_sample_positive_components (ws : List (XF K)) (hu : UsableWeights ws)
    {Y : Type*} (bern : ℕ → ℕ → K → Bool) (h0 : ∀ k j p, p ≤ 0 → bern k j p = false)
    (h1 : ∀ k j p, 1 ≤ p → bern k j p = true) (draw : ℕ → ℕ → Y) (n : ℕ) :
    ∃ stored ys, setWeights ws.length ws = .ok stored ∧
      mixtureSample ws.length stored bern draw n = .ok ys ∧ ∃ hl : ys.length = n,
        ∀ k (hk : k < n), ∃ i, ∃ hi : i < ws.length, (∃ x, 0 < x ∧ ws[i] = .fin x) ∧ ys[k] = draw i k := by
  obtain ⟨hpos, hinf⟩ := hu
  have hs := sum_clean_pos ws hpos
  set out := ws.map fun w => cleanVal w / (ws.map cleanVal).sum with hout
  have hpick : ∀ k, ∃ i, ∃ hi : i < ws.length, (∃ x, 0 < x ∧ ws[i] = .fin x) ∧
      argmaxNat (multinomial1 (bern k) out) = i := by
    intro k
    obtain ⟨i, hi, hp, he⟩ := multinomialGo_spec (bern k) (h0 k) (h1 k) out 0 1
      (by
        intro p hp
        obtain ⟨a, _, rfl⟩ := List.mem_map.mp hp
        exact div_nonneg (cleanVal_nonneg a) hs.le)
      (by rw [hout, sum_map_div, div_self hs.ne']) one_pos
    have hi' : i < ws.length := by simpa [hout] using hi
    refine ⟨i, hi', ?_, ?_⟩
    · have : 0 < cleanVal ws[i] / (ws.map cleanVal).sum := by simpa [hout] using hp
      have hc : 0 < cleanVal ws[i] := by
        by_contra hn
        have h0 : cleanVal ws[i] = 0 := le_antisymm (not_lt.mp hn) (cleanVal_nonneg _)
        rw [h0, zero_div] at this
        exact lt_irrefl _ this
      cases hw : ws[i] with
      | fin x =>
        rw [hw] at hc
        refine ⟨x, ?_, rfl⟩
        by_contra hx
        simp [cleanVal, hx] at hc
      | pinf => rw [hw] at hc; simp [cleanVal] at hc
      | ninf => rw [hw] at hc; simp [cleanVal] at hc
      | nan => rw [hw] at hc; simp [cleanVal] at hc
    · unfold multinomial1
      rw [he, argmaxNat_oneHot _ _ hi]
  choose pick hpl hpp hpe using hpick
  refine ⟨_, (List.range n).map fun k => draw (pick k) k, setWeights_eq ws hpos hinf, ?_, by simp, ?_⟩
  · unfold mixtureSample
    rw [finites_map_fin]
    simp only
    apply mapM_except_ok
    intro k _
    rw [hpe k, if_pos (hpl k)]
  · intro k hk
    exact ⟨pick k, hpl k, hpp k, by simp⟩

/-- Concrete run of C05: three components, the middle one has NaN weight; the draws pick components 0 and 2. -/
example : mixtureSample 3 [.fin (1/2 : ℚ), .fin 0, .fin (1/2)]
    (fun k _ p => if p ≤ 0 then false else if 1 ≤ p then true else k == 0) (fun i k => (i, k)) 2
    = .ok [(0, 0), (2, 1)] := by decide +kernel

end

/-- **C03** For any components (log densities real or `-inf`) and usable weights, the constructor succeeds and
`prob` returns for every batch the weighted averages of the component densities, `log_prob` returns their
logarithms (`-inf` exactly at density 0), and the average is between any common bounds of the component densities. -/
theorem C03_prob_logprob_agree {X : Type*} (models : List (X → XF ℝ)) (ws : List (XF ℝ))
    (hl : models.length = ws.length) (hu : UsableWeights ws)
    (hm : ∀ f ∈ models, ∀ x, IsLogDensity (f x)) :
    ∃ m w, Mixture.mk' models ws = .ok m ∧ m.weights = w.map .fin ∧ IsProbVec w ∧ w.length = models.length ∧
      (∀ data, m.prob data = data.map fun x => .fin (mixDensity models w x)) ∧
      (∀ data, m.logProb data = data.map fun x =>
        if mixDensity models w x = 0 then .ninf else .fin (Real.log (mixDensity models w x))) ∧
      (∀ x lo hi, (∀ f ∈ models, lo ≤ densOf (f x) ∧ densOf (f x) ≤ hi) →
        lo ≤ mixDensity models w x ∧ mixDensity models w x ≤ hi) := by
  obtain ⟨w, hw, hp, hlen, -⟩ := C01_set_weights_normalises ws hu
  refine ⟨⟨models, w.map .fin⟩, w, ?_, rfl, hp, by rw [hlen, hl], Mixture.prob_eq models w hm, ?_, ?_⟩
  · unfold Mixture.mk'
    rw [hl, hw]
    rfl
  · intro data
    rw [Mixture.logProb_eq models w hm hp.1]
    apply List.map_congr_left
    intro x _
    have h0 : 0 ≤ mixDensity models w x := by
      have hd : ∀ f ∈ models, 0 ≤ densOf (f x) := by
        intro f hf
        rcases hm f hf x with h | ⟨a, h⟩ <;> rw [h] <;> simp [densOf, Real.exp_nonneg]
      apply List.sum_nonneg
      intro y hy
      rw [List.mem_iff_getElem] at hy
      obtain ⟨i, hi, rfl⟩ := hy
      simp only [List.getElem_zipWith]
      exact mul_nonneg (hp.1 _ (List.getElem_mem _)) (hd _ (List.getElem_mem _))
    simp [XF.log, not_lt.mpr h0]
  · intro x lo hi hb
    have := mixDensity_bounds models w x (by rw [hl, hlen]) hp.1 lo hi hb
    rwa [hp.2, mul_one, mul_one] at this

/-- Concrete case for C03: two components, one of them vanishing at some points, unnormalised weights with a NaN. -/
example : ∃ (models : List (ℝ → XF ℝ)) (ws : List (XF ℝ)), models.length = ws.length ∧ UsableWeights ws ∧
    ∀ f ∈ models, ∀ x, IsLogDensity (f x) :=
  ⟨[fun x => .fin (-x), fun x => if x < 0 then .ninf else .fin 0, fun _ => .ninf], [.fin 3, .fin 1, .nan], rfl,
    ⟨⟨3, by norm_num, by simp⟩, by simp⟩, by
      intro f hf x
      simp only [List.mem_cons, List.not_mem_nil, or_false] at hf
      rcases hf with rfl | rfl | rfl
      · exact Or.inr ⟨_, rfl⟩
      · by_cases h : x < 0
        · exact Or.inl (by simp [h])
        · exact Or.inr ⟨0, by simp [h]⟩
      · exact Or.inl rfl⟩

open MeasureTheory in
/-- **C04** A mixture of densities is a density. -/
theorem C04_mixture_is_density {X : Type*} [MeasurableSpace X] (μ : Measure X)
    (models : List (X → XF ℝ)) (ws : List (XF ℝ)) (hl : models.length = ws.length) (hu : UsableWeights ws)
    (hm : ∀ f ∈ models, ∀ x, IsLogDensity (f x))
    (hint : ∀ f ∈ models, Integrable (fun x => densOf (f x)) μ)
    (hone : ∀ f ∈ models, ∫ x, densOf (f x) ∂μ = 1) :
    ∃ m g, Mixture.mk' models ws = .ok m ∧ (∀ x, m.prob [x] = [.fin (g x)]) ∧ (∀ x, 0 ≤ g x) ∧
      Integrable g μ ∧ ∫ x, g x ∂μ = 1 := by
  obtain ⟨m, w, hmk, -, hp, hlen, hprob, -, hb⟩ := C03_prob_logprob_agree models ws hl hu hm
  have hi := mixDensity_integral μ models w hlen.symm hint hone
  refine ⟨m, mixDensity models w, hmk, fun x => by rw [hprob]; rfl, ?_, hi.1, by rw [hi.2, hp.2]⟩
  intro x
  obtain ⟨M, hM⟩ : ∃ M, ∀ f ∈ models, densOf (f x) ≤ M :=
    ⟨(models.map fun f => densOf (f x)).sum, fun f hf =>
      List.single_le_sum (by
        intro y hy
        obtain ⟨g, hg, rfl⟩ := List.mem_map.mp hy
        exact densOf_nonneg _) _ (List.mem_map.mpr ⟨f, hf, rfl⟩)⟩
  exact (hb x 0 M fun f hf => ⟨densOf_nonneg _, hM f hf⟩).1

/-- The integral hypotheses of C04 can be met: on the one point space with the Dirac measure the
constant density 1 integrates to 1. -/
example : ∀ f ∈ [fun _ : Unit => (XF.fin 0 : XF ℝ)],
    ∫ x, densOf (f x) ∂(MeasureTheory.Measure.dirac ()) = 1 := by
  intro f hf
  simp only [List.mem_singleton] at hf
  subst hf
  simp [densOf]

end Verif
