import Verif.Proof.SampleLaw
import Verif.Proof.MixtureLaw
import Verif.Props.Mixture
import Mathlib.Probability.Independence.InfinitePi

/-!
# Properties C105, C106, C107: samples follow the density that `prob` reports
-/

set_option linter.unusedSectionVars false
set_option autoImplicit false

namespace Verif

open MeasureTheory ProbabilityTheory Matrix

variable {d : ℕ}

/-- **C105** (uniform) A row returned by `sample` follows the density reported by `prob`. -/
theorem C105_uniform (c : Fin d → ℝ) (rs : List ℝ) (rad : Fin d → ℝ) (hr : RadiusFor rs rad) (hpos : ∀ i, 0 < rad i) :
    ∃ U, Uniform.mk' c rs = .ok U ∧ Follows (Measure.map U.sample1 (uniformDraw d)) U.prob1 := by
  obtain ⟨U, hU, hp, -, -, -⟩ := C06_uniform_density c rs rad hr hpos
  have hvol : 0 < ∏ i, (2 * rad i) := Finset.prod_pos fun i _ => by have := hpos i; linarith
  refine ⟨U, hU, uniformDensity c rad, ?_, ?_, uniform_law c rs rad hr hpos U hU⟩
  · exact (measurable_const).indicator (MeasurableSet.univ_pi fun _ => measurableSet_Ioc)
  · intro x
    refine ⟨?_, hp x⟩
    exact Set.indicator_nonneg (fun _ _ => (one_div_pos.2 hvol).le) x

/-- **C105** (normal) For any mean and positive definite covariance, and whichever singular value decomposition numpy
computes, a row returned by `sample` follows the density reported by `prob`. -/
theorem C105_normal (m : Fin d → ℝ) (cov : Matrix (Fin d) (Fin d) ℝ) (hc : cov.PosDef) :
    ∃ N, Normal.mk' m cov = .ok N ∧ ∀ u s v, IsSVD cov u s v →
      Follows (Measure.map (N.sample1 s v) (stdNormal d)) (fun x => .fin (N.prob1 x)) := by
  obtain ⟨N, hN, hval, hpos, -⟩ := C09_normal_density m cov hc
  refine ⟨N, hN, ?_⟩
  intro u s v h
  refine ⟨N.prob1, ?_, fun x => ⟨(hpos x).1.le, rfl⟩, normal_law m cov hc N hN u v s h.left h.right h.nonneg h.eq⟩
  have : N.prob1 = fun x => Real.exp (-(1/2) * ((x - m) ⬝ᵥ (cov⁻¹ *ᵥ (x - m)))) / Real.sqrt ((2 * Real.pi) ^ d * cov.det) :=
    funext hval
  rw [this]
  exact Continuous.measurable (by fun_prop)

/-- Rows that are the same function of independent draws are independent and identically distributed. -/
theorem iid_rows {α β : Type*} [MeasurableSpace α] [MeasurableSpace β] (μ : Measure α) [IsProbabilityMeasure μ] (f : α → β)
    (hf : Measurable f) (n : ℕ) :
    Measure.map (fun (o : Fin n → α) k => f (o k)) (Measure.pi fun _ => μ) = Measure.pi fun _ => Measure.map f μ := by
  haveI : IsProbabilityMeasure (Measure.map f μ) := Measure.isProbabilityMeasure_map hf.aemeasurable
  exact Measure.pi_map_pi (μ := fun _ : Fin n => μ) (f := fun _ : Fin n => f) fun _ => hf.aemeasurable

theorem map_range_eq_ofFn {α : Type*} (f : ℕ → α) (n : ℕ) : (List.range n).map f = List.ofFn fun k : Fin n => f k := by
  apply List.ext_getElem <;> simp

/-- **C105** (uniform, all rows) `sample(n)` returns `n` rows, which are independent and all follow the density reported by
`prob` when the rows of random numbers are independent. -/
theorem C105_uniform_rows (c : Fin d → ℝ) (rs : List ℝ) (rad : Fin d → ℝ) (hr : RadiusFor rs rad) (hpos : ∀ i, 0 < rad i) :
    ∃ U law, Uniform.mk' c rs = .ok U ∧ Follows law U.prob1 ∧ ∀ n, ∃ X : (Fin n → Fin d → ℝ) → Fin n → Fin d → ℝ,
      (∀ u : ℕ → Fin d → ℝ, U.sample u n = .ok (.mat d (List.ofFn (X fun k => u k)))) ∧
      Measure.map X (Measure.pi fun _ => uniformDraw d) = Measure.pi fun _ => law := by
  obtain ⟨U, hU, hF⟩ := C105_uniform c rs rad hr hpos
  refine ⟨U, _, hU, hF, fun n => ⟨fun o k => U.sample1 (o k), fun u => ?_, iid_rows _ _ ?_ n⟩⟩
  · unfold Uniform.sample
    rw [map_range_eq_ofFn]
  · unfold Uniform.sample1
    exact measurable_pi_lambda _ fun i => by fun_prop

/-- **C105** (normal, all rows) `sample(n)` returns `n` rows, which are independent and all follow the density reported by
`prob` when the rows of standard normal numbers are independent. -/
theorem C105_normal_rows (m : Fin d → ℝ) (cov : Matrix (Fin d) (Fin d) ℝ) (hc : cov.PosDef) :
    ∃ N, Normal.mk' m cov = .ok N ∧ ∀ u s v, IsSVD cov u s v → ∃ law, Follows law (fun x => .fin (N.prob1 x)) ∧
      ∀ n, ∃ X : (Fin n → Fin d → ℝ) → Fin n → Fin d → ℝ,
        (∀ z : ℕ → Fin d → ℝ, N.sample s v z n = .ok (.mat d (List.ofFn (X fun k => z k)))) ∧
        Measure.map X (Measure.pi fun _ => stdNormal d) = Measure.pi fun _ => law := by
  obtain ⟨N, hN, hF⟩ := C105_normal m cov hc
  refine ⟨N, hN, fun u s v h => ⟨_, hF u s v h, fun n => ?_⟩⟩
  haveI : IsProbabilityMeasure (stdNormal d) := by unfold stdNormal; infer_instance
  refine ⟨fun o k => N.sample1 s v (o k), fun z => ?_, iid_rows _ _ ?_ n⟩
  · unfold Normal.sample
    rw [map_range_eq_ofFn]
  · show Measurable fun z : Fin d → ℝ => z ᵥ* _ + _
    exact Continuous.measurable (by fun_prop)

/-- The hypotheses hold for a square and for the standard normal. -/
example : (∃ U law, Uniform.mk' (fun _ : Fin 2 => (0 : ℝ)) [1] = .ok U ∧ Follows law U.prob1 ∧ ∀ n,
      ∃ X : (Fin n → Fin 2 → ℝ) → Fin n → Fin 2 → ℝ,
      (∀ u : ℕ → Fin 2 → ℝ, U.sample u n = .ok (.mat 2 (List.ofFn (X fun k => u k)))) ∧
      Measure.map X (Measure.pi fun _ => uniformDraw 2) = Measure.pi fun _ => law) ∧
    (1 : Matrix (Fin 2) (Fin 2) ℝ).PosDef :=
  ⟨C105_uniform_rows _ [1] (fun _ => 1) (.inl ⟨1, rfl, fun _ => rfl⟩) fun _ => one_pos, Matrix.PosDef.one⟩

/-- A decomposition exists for every diagonal covariance, the case used by the Gaussian mixtures. -/
theorem isSVD_diagonal (v : Fin d → ℝ) (hv : ∀ i, 0 ≤ v i) : IsSVD (diagonal v) 1 v 1 :=
  ⟨by simp, by simp, hv, by simp⟩

/-! ### Mixtures -/

theorem exp_fin_iff {v : XF ℝ} {g : ℝ} (h : XF.exp v = .fin g) : IsLogDensity v ∧ densOf v = g := by
  cases v with
  | fin a => exact ⟨.inr ⟨a, rfl⟩, by simpa [XF.exp, densOf] using h⟩
  | ninf => exact ⟨.inl rfl, by simpa [XF.exp, densOf] using h⟩
  | pinf => simp [XF.exp] at h
  | nan => simp [XF.exp] at h

theorem withDensity_list_sum (models : List ((Fin d → ℝ) → XF ℝ)) (w : List ℝ) (hl : w.length = models.length)
    (hw : ∀ a ∈ w, 0 ≤ a) (hm : ∀ i (hi : i < models.length), Measurable fun x => densOf (models[i] x)) :
    ∑ i : Fin w.length, ENNReal.ofReal w[i] •
      (volume : Measure (Fin d → ℝ)).withDensity (fun x => ENNReal.ofReal (densOf ((models[i.val]'(by have := i.2; omega)) x)))
    = volume.withDensity fun x => ENNReal.ofReal (mixDensity models w x) := by
  induction models generalizing w with
  | nil =>
    have : w = [] := List.length_eq_zero_iff.1 hl
    subst this
    simp [mixDensity]
  | cons f models ih =>
    cases w with
    | nil => simp at hl
    | cons a w =>
      have hm0 : Measurable fun x => ENNReal.ofReal (densOf (f x)) := ENNReal.measurable_ofReal.comp (hm 0 (by simp))
      have hih := ih w (by simpa using hl) (fun b hb => hw b (List.mem_cons_of_mem _ hb))
        (fun i hi => hm (i + 1) (by simpa using hi))
      rw [show (∑ i : Fin (a :: w).length, ENNReal.ofReal (a :: w)[i] •
          (volume : Measure (Fin d → ℝ)).withDensity (fun x => ENNReal.ofReal (densOf (((f :: models)[i.val]'(by have := i.2; omega)) x))))
        = ENNReal.ofReal a • (volume : Measure (Fin d → ℝ)).withDensity (fun x => ENNReal.ofReal (densOf (f x)))
          + ∑ i : Fin w.length, ENNReal.ofReal w[i] • (volume : Measure (Fin d → ℝ)).withDensity
            (fun x => ENNReal.ofReal (densOf ((models[i.val]'(by have := i.2; simp at hl; omega)) x))) from
        Fin.sum_univ_succ (n := w.length) _]
      rw [hih, ← withDensity_smul _ hm0, ← withDensity_add_left (hm0.const_smul _)]
      congr 1
      funext x
      have ha : 0 ≤ a := hw a (by simp)
      have hnn : 0 ≤ mixDensity models w x := by
        unfold mixDensity
        apply List.sum_nonneg
        intro y hy
        rw [List.mem_iff_getElem] at hy
        obtain ⟨i, hi, rfl⟩ := hy
        simp only [List.getElem_zipWith]
        exact mul_nonneg (hw _ (List.mem_cons_of_mem _ (List.getElem_mem _))) (densOf_nonneg _)
      simp only [Pi.add_apply, Pi.smul_apply, smul_eq_mul]
      rw [← ENNReal.ofReal_mul ha, ← ENNReal.ofReal_add (mul_nonneg ha (densOf_nonneg _)) hnn]
      simp [mixDensity]

/-- **C106** (mixture) Take any components whose samples follow the densities they report, and weights of which at least one
is a positive number and none is infinite. Then the mixture is built, and the `n` points it returns are
independent and all follow the density reported by `prob` of the mixture. `o k` is the randomness used for the
k-th point: Bernoulli draws for the selection of the component and a draw for the component. -/
theorem C106_mixture {Ω Ω' : Type*} [MeasurableSpace Ω] [MeasurableSpace Ω'] (μ : Measure Ω) (B : ℕ → ℝ → Set Ω)
    (hB : BernoulliSource μ B) (ν : Measure Ω') [IsProbabilityMeasure ν] (models : List ((Fin d → ℝ) → XF ℝ))
    (ws : List (XF ℝ)) (hl : models.length = ws.length) (hu : UsableWeights ws) (draw : ℕ → Ω' → Fin d → ℝ)
    (hdm : ∀ i, Measurable (draw i))
    (hd : ∀ i (hi : i < models.length), Follows (Measure.map (draw i) ν) fun x => XF.exp (models[i] x)) (n : ℕ) :
    ∃ m law, Mixture.mk' models ws = .ok m ∧ Follows law (fun x => (m.prob [x]).headD .nan) ∧
      ∃ X : (Fin n → Ω × Ω') → Fin n → Fin d → ℝ,
        (∀ (o : Fin n → Ω × Ω') (bern : ℕ → ℕ → ℝ → Bool) (dr : ℕ → ℕ → Fin d → ℝ),
          (∀ (k : Fin n) j p, bern k j p = true ↔ (o k).1 ∈ B j p) → (∀ i (k : Fin n), dr i k = draw i (o k).2) →
          mixtureSample models.length m.weights bern dr n = .ok (List.ofFn (X o))) ∧
        Measure.map X (Measure.pi fun _ => μ.prod ν) = Measure.pi fun _ => law := by
  haveI : IsProbabilityMeasure μ := (hB.indep fun _ => 0).isProbabilityMeasure
  have hlog : ∀ f ∈ models, ∀ x, IsLogDensity (f x) := by
    intro f hf x
    obtain ⟨i, hi, rfl⟩ := List.mem_iff_getElem.1 hf
    obtain ⟨g, -, hg, -⟩ := hd i hi
    exact (exp_fin_iff (hg x).2).1
  obtain ⟨m, w, hmk, hmw, hp, hlen, hprob, -, -⟩ := C03_prob_logprob_agree models ws hl hu hlog
  obtain ⟨hXm, hXl⟩ := mixture_point_law hB ν w hp.1 hp.2 draw hdm
  have hne : w ≠ [] := by
    rintro rfl
    have := hp.2
    simp at this
  have hgm : ∀ i (hi : i < models.length), Measurable (fun x => densOf (models[i] x)) ∧
      Measure.map (draw i) ν = volume.withDensity fun x => ENNReal.ofReal (densOf (models[i] x)) := by
    intro i hi
    obtain ⟨g, hgm, hg, hlaw⟩ := hd i hi
    have : g = fun x => densOf (models[i] x) := funext fun x => ((exp_fin_iff (hg x).2).2).symm
    rw [this] at hgm hlaw
    exact ⟨hgm, hlaw⟩
  have hsum : (∑ i : Fin w.length, ENNReal.ofReal w[i] • Measure.map (draw i) ν)
      = volume.withDensity fun x => ENNReal.ofReal (mixDensity models w x) := by
    rw [← withDensity_list_sum models w hlen hp.1 fun i hi => (hgm i hi).1]
    apply Finset.sum_congr rfl
    intro i _
    rw [(hgm i (by have := i.2; omega)).2]
  have hmeas : Measurable (mixDensity models w) := by
    have h1 : ∀ (ms : List ((Fin d → ℝ) → XF ℝ)) (v : List ℝ), (∀ f ∈ ms, Measurable fun x => densOf (f x)) →
        Measurable (mixDensity ms v) := by
      intro ms
      induction ms with
      | nil => intro v _; unfold mixDensity; simp
      | cons f ms ih =>
        intro v hf
        cases v with
        | nil => unfold mixDensity; simp
        | cons a v =>
          have := ih v fun g hg => hf g (List.mem_cons_of_mem _ hg)
          have h0 : mixDensity (f :: ms) (a :: v) = fun x => a * densOf (f x) + mixDensity ms v x := by
            funext x; simp [mixDensity]
          rw [h0]
          exact ((hf f (by simp)).const_mul a).add this
    apply h1
    intro f hf
    obtain ⟨i, hi, rfl⟩ := List.mem_iff_getElem.1 hf
    exact (hgm i hi).1
  have hnn : ∀ x, 0 ≤ mixDensity models w x := by
    intro x
    unfold mixDensity
    apply List.sum_nonneg
    intro y hy
    rw [List.mem_iff_getElem] at hy
    obtain ⟨i, hi, rfl⟩ := hy
    simp only [List.getElem_zipWith]
    exact mul_nonneg (hp.1 _ (List.getElem_mem _)) (densOf_nonneg _)
  refine ⟨m, volume.withDensity fun x => ENNReal.ofReal (mixDensity models w x), hmk,
    ⟨mixDensity models w, hmeas, fun x => ⟨hnn x, by show (m.prob [x]).headD _ = _; rw [hprob]; rfl⟩, rfl⟩,
    fun o k => draw (pickGo (outcome B (o k).1) 0 1 w) (o k).2, ?_, ?_⟩
  · intro o bern dr hb hdr
    rw [hmw]
    unfold mixtureSample
    rw [finites_map_fin]
    simp only
    have hof : List.ofFn (fun k : Fin n => draw (pickGo (outcome B (o k).1) 0 1 w) (o k).2) =
        (List.range n).map fun k => if h : k < n then draw (pickGo (outcome B (o ⟨k, h⟩).1) 0 1 w) (o ⟨k, h⟩).2 else 0 := by
      apply List.ext_getElem (by simp)
      intro k h1 h2
      have hk : k < n := by simpa using h1
      simp [hk]
    rw [hof]
    apply mapM_except_ok
    intro k hk
    have hk : k < n := List.mem_range.1 hk
    have hbk : bern k = outcome B (o ⟨k, hk⟩).1 := by
      funext j p
      rw [Bool.eq_iff_iff]
      have := hb ⟨k, hk⟩ j p
      simp only at this
      rw [this]
      simp [outcome]
    obtain ⟨h1, h2⟩ := argmax_pick (bern k) w hne
    rw [h1, if_pos (by omega), dif_pos hk, hbk]
    have := hdr (pickGo (outcome B (o ⟨k, hk⟩).1) 0 1 w) ⟨k, hk⟩
    simp only at this
    rw [this]
  · haveI : IsProbabilityMeasure (Measure.map (fun o : Ω × Ω' => draw (pickGo (outcome B o.1) 0 1 w) o.2) (μ.prod ν)) :=
      Measure.isProbabilityMeasure_map hXm.aemeasurable
    have := Measure.pi_map_pi (μ := fun _ : Fin n => μ.prod ν)
      (f := fun _ : Fin n => fun o : Ω × Ω' => draw (pickGo (outcome B o.1) 0 1 w) o.2) (fun _ => hXm.aemeasurable)
    rw [hXl, hsum] at this
    exact this

/-- The source used by numpy, comparing independent uniform numbers with the probabilities, is a Bernoulli source. -/
example : BernoulliSource (Measure.infinitePi fun _ : ℕ => (volume : Measure ℝ).restrict (Set.Ico 0 1))
    (fun j p => {ω : ℕ → ℝ | ω j < p}) := by
  haveI : IsProbabilityMeasure ((volume : Measure ℝ).restrict (Set.Ico 0 1)) := ⟨by simp⟩
  refine ⟨fun j p => measurableSet_lt (measurable_pi_apply j) measurable_const, ?_, ?_⟩
  · intro j p h0 h1
    have hmp := measurePreserving_eval_infinitePi (fun _ : ℕ => (volume : Measure ℝ).restrict (Set.Ico 0 1)) j
    have := hmp.measure_preimage (s := Set.Iio p) measurableSet_Iio.nullMeasurableSet
    rw [show {ω : ℕ → ℝ | ω j < p} = Function.eval j ⁻¹' Set.Iio p from rfl, this, Measure.restrict_apply measurableSet_Iio]
    rw [show Set.Iio p ∩ Set.Ico (0:ℝ) 1 = Set.Ico 0 p by
      ext t; simp only [Set.mem_inter_iff, Set.mem_Iio, Set.mem_Ico]; constructor
      · rintro ⟨h, h2, -⟩; exact ⟨h2, h⟩
      · rintro ⟨h, h2⟩; exact ⟨h2, h, by linarith⟩]
    simp
  · intro p
    have hi := iIndepFun_infinitePi (P := fun _ : ℕ => (volume : Measure ℝ).restrict (Set.Ico 0 1))
      (X := fun _ : ℕ => (id : ℝ → ℝ)) (fun _ => measurable_id)
    rw [iIndepSet_iff_meas_biInter (fun j => measurableSet_lt (measurable_pi_apply j) measurable_const)]
    intro s
    exact hi.meas_biInter fun j _ => ⟨Set.Iio (p j), measurableSet_Iio, rfl⟩

/-- **C106** (Gaussian mixture) For any means, positive variances and usable weights (or none), the points returned by `sample`
are independent and follow the density reported by `prob`. -/
theorem C106_gmm {Ω : Type*} [MeasurableSpace Ω] (μ : Measure Ω) (B : ℕ → ℝ → Set Ω) (hB : BernoulliSource μ B)
    (svd : Matrix (Fin d) (Fin d) ℝ → (Fin d → ℝ) × Matrix (Fin d) (Fin d) ℝ)
    (hsvd : ∀ v : Fin d → ℝ, (∀ k, 0 < v k) → ∃ u, IsSVD (diagonal v) u (svd (diagonal v)).1 (svd (diagonal v)).2)
    (means sigmas : List (Fin d → ℝ)) (hne : means ≠ []) (hl : sigmas.length = means.length)
    (hv : ∀ v ∈ sigmas, ∀ k, 0 < v k) (ws : Option (List (XF ℝ)))
    (hw : ∀ l, ws = some l → l.length = means.length ∧ UsableWeights l) (support : (Fin d → ℝ) × (Fin d → ℝ)) (n : ℕ) :
    ∃ g law, GMM.mk' means sigmas ws support = .ok g ∧ Follows law (fun x => (g.prob [x]).headD .nan) ∧
      ∃ X : (Fin n → Ω × (Fin d → ℝ)) → Fin n → Fin d → ℝ,
        (∀ (o : Fin n → Ω × (Fin d → ℝ)) (bern : ℕ → ℕ → ℝ → Bool) (z : ℕ → Fin d → ℝ),
          (∀ (k : Fin n) j p, bern k j p = true ↔ (o k).1 ∈ B j p) → (∀ k : Fin n, z k = (o k).2) →
          g.sample svd bern z n = .ok (List.ofFn (X o))) ∧
        Measure.map X (Measure.pi fun _ => μ.prod (stdNormal d)) = Measure.pi fun _ => law := by
  haveI : IsProbabilityMeasure (stdNormal d) := by unfold stdNormal; infer_instance
  set w0 := ws.getD (List.replicate means.length (.fin (1 / means.length))) with hw0
  have hlen0 : 0 < means.length := List.length_pos_of_ne_nil hne
  have hus : w0.length = means.length ∧ UsableWeights w0 := by
    cases hws : ws with
    | none =>
      rw [hw0, hws]
      exact ⟨by simp, usable_default _ hlen0⟩
    | some l =>
      rw [hw0, hws]
      exact hw l hws
  set ps := List.zip means sigmas with hps
  have hpl : ps.length = means.length := by simp [hps, hl]
  have hpv : ∀ p ∈ ps, ∀ k, 0 < p.2 k := fun p hp => hv p.2 (List.of_mem_zip hp).2
  set comps := ps.map diagNormal with hcomps
  set draw : ℕ → (Fin d → ℝ) → Fin d → ℝ := fun i z => match comps[i]? with
      | some N => N.sample1 (svd N.scale).1 (svd N.scale).2 z
      | none => 0 with hdraw
  have hdm : ∀ i, Measurable (draw i) := by
    intro i
    simp only [hdraw]
    cases comps[i]? with
    | none => exact measurable_const
    | some N =>
      show Measurable fun z : Fin d → ℝ => z ᵥ* _ + N.loc
      exact Continuous.measurable (by fun_prop)
  obtain ⟨m, law, hmk, hfol, X, hX, hmap⟩ := C106_mixture μ B hB (stdNormal d)
    (ps.map fun p => fun x => XF.fin ((diagNormal p).logProb1 x)) w0 (by simp [hpl, hus.1]) hus.2 draw hdm (by
      intro i hi
      have hip : i < ps.length := by simpa using hi
      have hci : comps[i]? = some (diagNormal ps[i]) := by simp [hcomps, hip]
      have hd : draw i = (diagNormal ps[i]).sample1 (svd (diagonal ps[i].2)).1 (svd (diagonal ps[i].2)).2 := by
        funext z
        simp only [hdraw, hci]
        rfl
      have hvi := hpv ps[i] (List.getElem_mem hip)
      obtain ⟨N, hN, hfol⟩ := C105_normal ps[i].1 (diagonal ps[i].2) (posDef_diag hvi)
      have hNd : N = diagNormal ps[i] := by
        have := diag_mk (m := ps[i].1) hvi
        rw [hN] at this
        cases this
        rfl
      obtain ⟨u, hu⟩ := hsvd ps[i].2 hvi
      have := hfol u _ _ hu
      rw [hNd, ← hd] at this
      simpa [XF.exp, Normal.prob1] using this) n
  refine ⟨⟨comps, means, sigmas, w0, support, m⟩, law, ?_, hfol, X, ?_, hmap⟩
  · rw [gmm_mk means sigmas hne hl hv ws support, ← hw0, hmk]
  · intro o bern z hb hz
    have := hX o bern (fun i k => draw i (z k)) hb (fun i k => by rw [hz k])
    have hlc : (ps.map fun p => fun x => XF.fin ((diagNormal p).logProb1 x)).length = comps.length := by simp [hcomps]
    rw [hlc] at this
    exact this

/-- A routine meeting the hypothesis of `C106_gmm`. -/
example (v : Fin d → ℝ) (hv : ∀ k, 0 < v k) :
    ∃ u, IsSVD (diagonal v) u ((fun c : Matrix (Fin d) (Fin d) ℝ => (c.diag, (1 : Matrix (Fin d) (Fin d) ℝ))) (diagonal v)).1
      ((fun c : Matrix (Fin d) (Fin d) ℝ => (c.diag, (1 : Matrix (Fin d) (Fin d) ℝ))) (diagonal v)).2 :=
  ⟨1, by simpa using isSVD_diagonal v fun i => (hv i).le⟩

/-! ### The exponential distribution -/

/-- **C107** (what holds, exponential in one dimension) The numbers returned by `sample` follow the function that `prob` evaluates exactly when
the mean is 1: for every other mean they do not. (They follow the exponential distribution with that mean, see
`exponential_law`.) Missing with respect to C107: all other means, and the covariances of `C107_refuted`. -/
theorem C107_partial (mu : ℝ) (hmu : 0 < mu) :
    Follows (Measure.map (fun (u : ℝ) (_ : Fin 1) => Exponential.sample1 mu u) (volume.restrict (Set.Ico (0:ℝ) 1)))
      (fun x => .fin (Exponential.value (fun _ : Fin 1 => mu) x)) ↔ mu = 1 := by
  have hsm : Measurable (Exponential.sample1 mu) := by unfold Exponential.sample1; fun_prop
  have hmeas : Measurable fun (u : ℝ) (_ : Fin 1) => Exponential.sample1 mu u := measurable_pi_lambda _ fun _ => hsm
  haveI : IsProbabilityMeasure (volume.restrict (Set.Ico (0:ℝ) 1)) := ⟨by simp⟩
  constructor
  · rintro ⟨g, hg, hgx, hlaw⟩
    have hgv : g = Exponential.value (fun _ : Fin 1 => mu) := by
      funext x
      have := (hgx x).2
      simp only [XF.fin.injEq] at this
      exact this.symm
    haveI : IsProbabilityMeasure (Measure.map (fun (u : ℝ) (_ : Fin 1) => Exponential.sample1 mu u)
        (volume.restrict (Set.Ico (0:ℝ) 1))) := Measure.isProbabilityMeasure_map hmeas.aemeasurable
    have h1 : ∫⁻ x, ENNReal.ofReal (g x) = 1 := by
      have := measure_univ (μ := Measure.map (fun (u : ℝ) (_ : Fin 1) => Exponential.sample1 mu u)
        (volume.restrict (Set.Ico (0:ℝ) 1)))
      rw [hlaw, withDensity_apply _ MeasurableSet.univ, Measure.restrict_univ] at this
      exact this
    have h2 : ∫ x, g x = 1 := by
      rw [integral_eq_lintegral_of_nonneg_ae (Filter.Eventually.of_forall fun x => (hgx x).1) hg.aestronglyMeasurable, h1]
      rfl
    rw [hgv] at h2
    exact ((C11_refuted (d := 1)).1 mu hmu).1 h2
  · rintro rfl
    have hval : ∀ x : Fin 1 → ℝ, Exponential.value (fun _ : Fin 1 => 1) x = if 0 < x 0 then Real.exp (-(x 0)) else 0 := by
      intro x
      have : x = fun _ => x 0 := by funext i; fin_cases i; rfl
      rw [this, value_fin_one]
      simp
    refine ⟨_, ?_, fun x => ⟨?_, rfl⟩, ?_⟩
    · rw [show Exponential.value (fun _ : Fin 1 => 1) = fun x => if 0 < x 0 then Real.exp (-(x 0)) else 0 from funext hval]
      exact Measurable.ite (measurableSet_lt measurable_const (measurable_pi_apply 0)) (by fun_prop) measurable_const
    · rw [hval]
      split_ifs
      · exact (Real.exp_pos _).le
      · exact le_rfl
    · have hcomp : (fun (u : ℝ) (_ : Fin 1) => Exponential.sample1 1 u) =
          (MeasurableEquiv.funUnique (Fin 1) ℝ).symm ∘ Exponential.sample1 1 := by
        funext u i
        rfl
      rw [hcomp, ← Measure.map_map (MeasurableEquiv.measurable _) hsm, exponential_law one_pos]
      have hE : expMeasure (1 / 1) = volume.withDensity fun t : ℝ => ENNReal.ofReal (if 0 < t then Real.exp (-t) else 0) := by
        show volume.withDensity (exponentialPDF (1 / 1)) = _
        apply withDensity_congr_ae
        have : ∀ᵐ t : ℝ, t ≠ 0 := by simp [ae_iff]
        filter_upwards [this] with t ht
        rw [exponentialPDF_eq]
        congr 1
        by_cases h : 0 ≤ t
        · rw [if_pos h, if_pos (lt_of_le_of_ne h (Ne.symm ht))]; simp
        · rw [if_neg h, if_neg fun h' => h h'.le]
      rw [hE]
      have hvp := (volume_preserving_funUnique (Fin 1) ℝ).symm
      ext S hS
      rw [Measure.map_apply (MeasurableEquiv.measurable _) hS, withDensity_apply _ (MeasurableEquiv.measurable _ hS),
        withDensity_apply _ hS]
      refine Eq.trans ?_ (hvp.setLIntegral_comp_preimage_emb (MeasurableEquiv.measurableEmbedding _)
        (fun x => ENNReal.ofReal (Exponential.value (fun _ : Fin 1 => 1) x)) S)
      apply setLIntegral_congr_fun (MeasurableEquiv.measurable _ hS)
      intro t _
      simp only [hval]
      rfl

/-- **C107** (exponential in one dimension, all entries) `sample(n)` returns `n` numbers, which are independent and all follow the
exponential distribution with the mean given. -/
theorem C107_partial_entries (E : Exponential 1) (h : 0 < E.loc 0) (n : ℕ) :
    ∃ X : (Fin n → ℝ) → Fin n → ℝ, (∀ u : ℕ → ℝ, E.sample u n = .ok (.vec (List.ofFn (X fun k => u k)))) ∧
      Measure.map X (Measure.pi fun _ => volume.restrict (Set.Ico (0:ℝ) 1)) =
        Measure.pi fun _ => expMeasure (1 / E.loc 0) := by
  haveI : IsProbabilityMeasure (volume.restrict (Set.Ico (0:ℝ) 1)) := ⟨by simp⟩
  refine ⟨fun o k => Exponential.sample1 (E.loc 0) (o k), fun u => ?_, ?_⟩
  · unfold Exponential.sample
    rw [dif_pos rfl, map_range_eq_ofFn]
    rfl
  · rw [iid_rows _ _ (by unfold Exponential.sample1; fun_prop) n, exponential_law h]

/-- **C107** (negation) Two distributions that are built without complaint and whose samples do not follow `prob`: the
exponential distribution with mean 2, and the two dimensional normal "distribution" with covariance `-I`, which has
a positive determinant; whatever the decomposition, its samples do not follow the reported function. -/
theorem C107_refuted :
    ¬ Follows (Measure.map (fun (u : ℝ) (_ : Fin 1) => Exponential.sample1 2 u) (volume.restrict (Set.Ico (0:ℝ) 1)))
      (fun x => .fin (Exponential.value (fun _ : Fin 1 => 2) x)) ∧
    ∃ N, Normal.mk' (0 : Fin 2 → ℝ) (-1) = .ok N ∧ ∀ s v,
      ¬ Follows (Measure.map (N.sample1 s v) (stdNormal 2)) (fun x => .fin (N.prob1 x)) := by
  refine ⟨fun h => by have := (C107_partial 2 two_pos).1 h; norm_num at this, ?_⟩
  have hdet : (-1 : Matrix (Fin 2) (Fin 2) ℝ).det = 1 := by simp [det_neg]
  refine ⟨_, Normal.mk'_eq (by rw [hdet]; exact one_pos), ?_⟩
  rintro s v ⟨g, hg, hgx, hlaw⟩
  haveI : IsProbabilityMeasure (stdNormal 2) := by unfold stdNormal; infer_instance
  have h1 := congrArg (fun m : Measure (Fin 2 → ℝ) => m Set.univ) hlaw
  rw [withDensity_apply _ MeasurableSet.univ, Measure.restrict_univ] at h1
  have hle : Measure.map (Normal.sample1 ⟨(0 : Fin 2 → ℝ), -1, (-1 : Matrix (Fin 2) (Fin 2) ℝ).det, (-1)⁻¹,
      -(1/2) * (2 : ℕ) * Real.log (Real.pi * 2), -(1/2) * Real.log (-1 : Matrix (Fin 2) (Fin 2) ℝ).det⟩ s v) (stdNormal 2) Set.univ ≤ 1 := by
    rw [Measure.map_apply _ MeasurableSet.univ, Set.preimage_univ, measure_univ]
    show Measurable fun z : Fin 2 → ℝ => z ᵥ* _ + _
    exact Continuous.measurable (by fun_prop)
  have hlow : ∀ x, Real.exp (-Real.log (Real.pi * 2)) ≤ g x := by
    intro x
    have hx := (hgx x).2
    simp only [XF.fin.injEq] at hx
    rw [← hx]
    unfold Normal.prob1 Normal.logProb1
    apply Real.exp_le_exp.2
    have hinv : (-1 : Matrix (Fin 2) (Fin 2) ℝ)⁻¹ = -1 := by
      apply Matrix.inv_eq_right_inv
      simp
    simp only [hdet, hinv, Real.log_one, zero_sub]
    have hq : ((-x) ᵥ* (-1 : Matrix (Fin 2) (Fin 2) ℝ)) ⬝ᵥ (-x) = -(x 0 ^ 2 + x 1 ^ 2) := by
      simp [dotProduct, Fin.sum_univ_two, vecMul_neg]
      ring
    rw [hq]
    push_cast
    nlinarith [sq_nonneg (x 0), sq_nonneg (x 1)]
  have hinf : ∫⁻ x, ENNReal.ofReal (g x) = ⊤ := by
    rw [eq_top_iff]
    calc (⊤ : ENNReal) = ∫⁻ _ : Fin 2 → ℝ, ENNReal.ofReal (Real.exp (-Real.log (Real.pi * 2))) := by
          rw [lintegral_const]
          have : (volume : Measure (Fin 2 → ℝ)) Set.univ = ⊤ := by
            simp
          rw [this, ENNReal.mul_top]
          simp [Real.exp_pos]
      _ ≤ _ := lintegral_mono fun x => ENNReal.ofReal_le_ofReal (hlow x)
  rw [hinf] at h1
  rw [h1] at hle
  simp at hle

end Verif
