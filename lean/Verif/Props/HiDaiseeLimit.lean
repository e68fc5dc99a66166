import Verif.Proof.HiDaiseeRun
import Verif.Proof.Convergence
import Mathlib.Analysis.SpecialFunctions.Log.Base

/-!
# Property C138: averages over the samples of HiDaisee
-/

set_option linter.unusedSectionVars false
set_option autoImplicit false

namespace Verif
namespace HiD

open MeasureTheory Filter Topology
open Adaptive (st)

/-! ### Refutation -/

theorem inBox_one : {x : Pt ℝ 1 | InBox ![-1] ![1] x} = Set.univ.pi fun _ => Set.Ioc (-1) 1 := by
  ext x
  simp [InBox]

theorem setIntegral_one (g : ℝ → ℝ) : ∫ x in {x : Pt ℝ 1 | InBox ![-1] ![1] x}, g (x 0) = ∫ y in Set.Ioc (-1) 1, g y := by
  have e := (volume_preserving_funUnique (Fin 1) ℝ).setIntegral_preimage_emb
    (MeasurableEquiv.measurableEmbedding _) g (Set.Ioc (-1) 1)
  rw [← e, inBox_one]
  congr 2
  ext x
  simp [MeasurableEquiv.funUnique, Fin.default_eq_zero]

theorem two_level_mean : targetMean onLeft twoLevel ![-1] ![1] = 1 / 4 := by
  have h1 : ∫ x in {x : Pt ℝ 1 | InBox ![-1] ![1] x}, onLeft x * twoLevel x = 1 := by
    have : (fun x : Pt ℝ 1 => onLeft x * twoLevel x) = fun x => (Set.Iio (0 : ℝ)).indicator (fun _ => (1 : ℝ)) (x 0) := by
      funext x
      by_cases h : x 0 < 0 <;> simp [onLeft, twoLevel, h]
    rw [this, setIntegral_one, setIntegral_indicator measurableSet_Iio]
    have e : Set.Ioc (-1 : ℝ) 1 ∩ Set.Iio 0 = Set.Ioo (-1) 0 := by
      ext y
      simp only [Set.mem_inter_iff, Set.mem_Ioc, Set.mem_Iio, Set.mem_Ioo]
      constructor
      · rintro ⟨⟨a, -⟩, b⟩; exact ⟨a, b⟩
      · rintro ⟨a, b⟩; exact ⟨⟨a, by linarith⟩, b⟩
    rw [e]
    simp
  have h2 : ∫ x in {x : Pt ℝ 1 | InBox ![-1] ![1] x}, twoLevel x = 4 := by
    have : (fun x : Pt ℝ 1 => twoLevel x) = fun x => 3 - (Set.Iio (0 : ℝ)).indicator (fun _ => (2 : ℝ)) (x 0) := by
      funext x
      by_cases h : x 0 < 0 <;> simp [twoLevel, h]
      norm_num
    rw [this, setIntegral_one (fun y => 3 - (Set.Iio (0 : ℝ)).indicator (fun _ => (2 : ℝ)) y), integral_sub,
      setIntegral_indicator measurableSet_Iio]
    · have e : Set.Ioc (-1 : ℝ) 1 ∩ Set.Iio 0 = Set.Ioo (-1) 0 := by
        ext y
        simp only [Set.mem_inter_iff, Set.mem_Ioc, Set.mem_Iio, Set.mem_Ioo]
        constructor
        · rintro ⟨⟨a, -⟩, b⟩; exact ⟨a, b⟩
        · rintro ⟨a, b⟩; exact ⟨⟨a, by linarith⟩, b⟩
      rw [e]
      norm_num
    · exact integrable_const _
    · exact (integrable_const _).indicator measurableSet_Iio
  unfold targetMean
  rw [h1, h2]

/-- **C138**, negation. On the interval from -1 to 1 with target density 1 on the left half and 3 on the right half, and the
function that is 1 on the left half and 0 elsewhere, the right value is 1/4. For all parameters with target ESS above 0.8
(the benchmark's definition file has 0.9), with probability one all calls return, and the averages do not tend to 1/4. -/
theorem C138_refuted {σ e : ℝ} {m : ℕ} (hσ : 0 ≤ σ) (he : 4 / 5 < e) (he1 : e < 1) :
    targetMean onLeft twoLevel ![-1] ![1] = 1 / 4 ∧
    ∀ᵐ ω ∂(drawStream 1),
      (∀ n, ∃ S, importanceSample ⟨realBoost σ, m, e⟩ (fun x => .fin (twoLevel x)) n (outcomes ω) (reset ![-1] ![1]) = .ok S) ∧
      ¬ Settles ⟨realBoost σ, m, e⟩ twoLevel ![-1] ![1] onLeft (1 / 4) ω := by
  refine ⟨two_level_mean, ?_⟩
  filter_upwards [chain_limit (σ := σ) (m := m) (e := e) hσ he, ae_proper] with ω ⟨⟨K, hK⟩, hlim⟩ hprop
  refine ⟨fun n => (run_calls hσ he1 ω hprop n).imp fun S h => h.1, fun hset => hlim ?_⟩
  set X := st (chainStep σ m e) chain0 ω with hX
  have hr : Tendsto (fun n : ℕ => (X n).nl / ((X n).nl + 3 * (X n).nr)) atTop (𝓝 (1 / 4)) := by
    rw [Metric.tendsto_atTop]
    intro δ hδ
    obtain ⟨N, hN⟩ := hset δ hδ
    refine ⟨max N K, fun n hn => ?_⟩
    obtain ⟨S, ws, h1, h2, h3⟩ := hN n ((le_max_left _ _).trans hn)
    obtain ⟨S', g1, g2⟩ := run_calls (m := m) hσ he1 ω hprop n
    have : S = S' := by
      have := h1.symm.trans g1
      exact Except.ok.inj this
    subst this
    rw [g2 (X_cut_mono (σ := σ) (m := m) (e := e) ω ((le_max_right _ _).trans hn) hK) ws h2] at h3
    exact h3
  have hx := (hr.const_mul 3).div ((hr.const_mul 2).const_add 1) (by norm_num)
  norm_num at hx
  refine hx.congr' ?_
  filter_upwards [eventually_gt_atTop 0] with n hn
  have h0 := X_nonneg (σ := σ) (m := m) (e := e) ω n
  have h1 := X_total (σ := σ) (m := m) (e := e) ω n
  rw [← hX] at h0 h1
  have hn' : (0 : ℝ) < n := by exact_mod_cast hn
  rw [← h1] at hn' ⊢
  have hd : 0 < (X n).nl + 3 * (X n).nr := by linarith [h0.2]
  show 3 * ((X n).nl / ((X n).nl + 3 * (X n).nr)) / (1 + 2 * ((X n).nl / ((X n).nl + 3 * (X n).nr))) = _
  generalize (X n).nl = a at *
  generalize (X n).nr = b at *
  have hd' : 1 + 2 * (a / (a + 3 * b)) ≠ 0 := by
    have := div_nonneg h0.1 hd.le
    linarith
  rw [div_eq_div_iff hd' hn'.ne']
  field_simp
  ring

/-! ### What holds -/

variable {d : ℕ} {lo hi : Pt ℝ d}

/-- The root with samples `xs`. -/
noncomputable def rootNode (p : Pt ℝ d → ℝ) (lo hi : Pt ℝ d) (q : XF ℝ) (xs : List (Pt ℝ d)) (e : XF ℝ) : Node ℝ d :=
  ⟨fun i => (hi i + lo i) / 2, fun i => (hi i - lo i) / 2, q, none, none, some xs,
    xs.map fun x => XF.fin (p x * ∏ i, (hi i - lo i)), xs.length, e⟩

/-- The point of the box for the numbers `u`. -/
def boxPoint (lo hi u : Pt ℝ d) : Pt ℝ d := fun i => lo i + (hi i - lo i) * u i

theorem rootNode_vol (p : Pt ℝ d → ℝ) (q : XF ℝ) (xs : List (Pt ℝ d)) (e : XF ℝ) :
    (rootNode p lo hi q xs e).vol = ∏ i, (hi i - lo i) := by
  unfold Node.vol rootNode
  refine Finset.prod_congr rfl fun i _ => ?_
  show 2 * ((hi i - lo i) / 2) = _
  ring

theorem rootNode_sample (p : Pt ℝ d → ℝ) (q : XF ℝ) (xs : List (Pt ℝ d)) (e : XF ℝ) (u : Pt ℝ d) :
    (rootNode p lo hi q xs e).sampler.sample1 u = boxPoint lo hi u := by
  funext i
  show (hi i + lo i) / 2 - (hi i - lo i) / 2 + (((hi i + lo i) / 2 + (hi i - lo i) / 2) - ((hi i + lo i) / 2 - (hi i - lo i) / 2)) * u i =
    lo i + (hi i - lo i) * u i
  ring

theorem boxPoint_mem (hbox : ∀ i, lo i < hi i) {u : Pt ℝ d} (hu : ∀ i, 0 < u i ∧ u i < 1) : InBox lo hi (boxPoint lo hi u) := by
  intro i
  have h1 := hbox i
  have h2 := hu i
  unfold boxPoint
  constructor <;> nlinarith

/-- The effective sample size of weights in `[a, b]`. -/
theorem ess_bound {a b e : ℝ} (ha : 0 < a) (hab : a ≤ b) (he0 : 0 ≤ e) (he : e * (a + b) ^ 2 ≤ 4 * a * b) :
    ∀ ws : List ℝ, (∀ w ∈ ws, a ≤ w ∧ w ≤ b) → e * ws.length * (ws.map fun w => w * w).sum ≤ ws.sum * ws.sum := by
  intro ws hw
  have h1 : (ws.map fun w => w * w).sum ≤ (a + b) * ws.sum - ws.length * (a * b) := by
    clear he
    induction ws with
    | nil => simp
    | cons w ws ih =>
      have ih := ih fun v hv => hw v (List.mem_cons_of_mem _ hv)
      obtain ⟨h1, h2⟩ := hw w List.mem_cons_self
      simp only [List.map_cons, List.sum_cons, List.length_cons]
      push_cast
      nlinarith [mul_nonneg (sub_nonneg.2 h1) (sub_nonneg.2 h2)]
  have hn : (0 : ℝ) ≤ ws.length := by positivity
  have h2 : e * ws.length * (ws.map fun w => w * w).sum ≤ e * ws.length * ((a + b) * ws.sum - ws.length * (a * b)) :=
    mul_le_mul_of_nonneg_left h1 (by positivity)
  refine h2.trans ?_
  generalize ws.sum = S
  generalize (ws.length : ℝ) = n at *
  have h3 : e * (e * (a + b) ^ 2) * n ^ 2 ≤ e * (4 * a * b) * n ^ 2 := by gcongr
  nlinarith [sq_nonneg (2 * S - e * (a + b) * n)]

theorem root_step (hbox : ∀ i, lo i < hi i) {p : Pt ℝ d → ℝ} {a b : ℝ} {c : Cfg ℝ} (ha : 0 < a)
    (hp : ∀ x, InBox lo hi x → a ≤ p x ∧ p x ≤ b) (he0 : 0 ≤ c.essTarget) (he : c.essTarget * (a + b) ^ 2 ≤ 4 * a * b) (q e : XF ℝ)
    (xs : List (Pt ℝ d)) (hxs : ∀ x ∈ xs, InBox lo hi x) (t : ℕ) (it : Iter ℝ d) (hu : ∀ i, 0 < it.u i ∧ it.u i < 1) :
    ∃ q' e' k, iterate c (fun x => .fin (p x)) t it ⟨[rootNode p lo hi q xs e], [0]⟩ =
      .ok (⟨[rootNode p lo hi q' (xs ++ [boxPoint lo hi it.u]) e'], [0]⟩, k) := by
  set x := boxPoint lo hi it.u with hx
  have hxin : InBox lo hi x := boxPoint_mem hbox hu
  have hall : ∀ z ∈ xs ++ [x], InBox lo hi z := by
    intro z hz
    rcases List.mem_append.1 hz with hz | hz
    · exact hxs z hz
    · rw [List.mem_singleton.1 hz]; exact hxin
  set V := ∏ i, (hi i - lo i) with hV
  have hV0 : 0 < V := Finset.prod_pos fun i _ => sub_pos.2 (hbox i)
  have hprob : (rootNode p lo hi q xs e).sampler.prob1 x = XF.fin (1 / V) := by
    rw [prob1_has, rootNode_vol]
    · intro i
      show 0 < (hi i - lo i) / 2
      linarith [hbox i]
    · intro i
      have := hxin i
      show (hi i + lo i) / 2 - (hi i - lo i) / 2 < x i ∧ x i ≤ (hi i + lo i) / 2 + (hi i - lo i) / 2
      constructor <;> linarith
  have hw : XF.fin (p x) / XF.fin (1 / V) = XF.fin (p x * V) := by
    rw [XF.fin_div_ne _ _ (by positivity)]
    congr 1
    field_simp
  set ws : List ℝ := (xs ++ [x]).map fun x => p x * V with hws
  have hwb : ∀ w ∈ ws, a * V ≤ w ∧ w ≤ b * V := by
    intro w hw
    obtain ⟨z, hz, rfl⟩ := List.mem_map.1 hw
    have := hp z (hall z hz)
    exact ⟨mul_le_mul_of_nonneg_right this.1 hV0.le, mul_le_mul_of_nonneg_right this.2 hV0.le⟩
  have hsq : 0 < (ws.map fun w => w * w).sum := by
    refine List.sum_pos _ ?_ (by simp [hws])
    intro y hy
    obtain ⟨w, hw, rfl⟩ := List.mem_map.1 hy
    have h1 : 0 < w := lt_of_lt_of_le (mul_pos ha hV0) (hwb w hw).1
    positivity
  have hadd : (rootNode p lo hi q xs e).addSample x (XF.fin (p x * V)) =
      rootNode p lo hi q (xs ++ [x]) (XF.fin (ws.sum * ws.sum / (ws.map fun w => w * w).sum)) := by
    have e1 : (xs.map fun x => XF.fin (p x * V)) ++ [XF.fin (p x * V)] = ws.map XF.fin := by simp [hws]
    have e2 : ((xs ++ [x]).map fun x => XF.fin (p x * V)) = ws.map XF.fin := by simp [hws]
    have e3 : ((ws.map XF.fin).map fun w => w * w) = (ws.map fun w => w * w).map XF.fin := by
      clear_value ws
      rw [List.map_map, List.map_map]
      refine List.map_congr_left fun w _ => ?_
      simp [XF.fin_mul]
    unfold Node.addSample rootNode
    simp only [Option.getD_some]
    rw [← hV, e1, e2, e3, XF.sum_map_fin, XF.sum_map_fin, XF.fin_mul, XF.fin_div_ne _ _ hsq.ne']
  have hab : a ≤ b := (hp x hxin).1.trans (hp x hxin).2
  have hess := ess_bound (mul_pos ha hV0) (mul_le_mul_of_nonneg_right hab hV0.le) he0
    (by nlinarith [mul_le_mul_of_nonneg_right he (sq_nonneg V)]) ws hwb
  unfold iterate
  have hsel : (⟨[rootNode p lo hi q xs e], [0]⟩ : Tree ℝ d).select it.rs 1 0 [0] 0 = .ok ([0], 0) := by
    unfold Tree.select
    simp
  rw [show (⟨[rootNode p lo hi q xs e], [0]⟩ : Tree ℝ d).nodes.length = 1 from rfl, hsel]
  simp only [List.getElem?_cons_zero, rootNode_sample, ← hx, hprob, hw, hadd]
  rw [if_neg (by simp [XF.ltb, hV0])]
  split
  · rename_i hyes
    exfalso
    have h3 : XF.ltb (XF.fin (ws.sum * ws.sum / (ws.map fun w => w * w).sum)) (XF.fin (c.essTarget * ((xs ++ [x]).length : ℝ))) = true :=
      hyes.2
    simp only [XF.ltb, decide_eq_true_eq] at h3
    rw [div_lt_iff₀ hsq] at h3
    have h4 : ws.length = (xs ++ [x]).length := by simp [hws]
    rw [← h4] at h3
    linarith
  · exact ⟨_, _, _, rfl⟩

theorem root_run (hbox : ∀ i, lo i < hi i) {p : Pt ℝ d → ℝ} {a b : ℝ} {c : Cfg ℝ} (ha : 0 < a)
    (hp : ∀ x, InBox lo hi x → a ≤ p x ∧ p x ≤ b) (he0 : 0 ≤ c.essTarget) (he : c.essTarget * (a + b) ^ 2 ≤ 4 * a * b)
    (ω : ℕ → Draws d) (hω : ∀ k i, 0 < (ω k).2.1 i ∧ (ω k).2.1 i < 1) (n : ℕ) :
    ∃ S q e, iterations c (fun x => .fin (p x)) 0 ((List.range n).map (outcomes ω)) (reset lo hi) = .ok S ∧
      S.T = ⟨[rootNode p lo hi q ((List.range n).map fun k => boxPoint lo hi (ω k).2.1) e], [0]⟩ := by
  induction n with
  | zero => exact ⟨_, XF.fin 0, XF.fin 0, rfl, rfl⟩
  | succ n ih =>
    obtain ⟨S, q, e, h1, h2⟩ := ih
    obtain ⟨q', e', k, h3⟩ := root_step hbox ha hp he0 he q e ((List.range n).map fun k => boxPoint lo hi (ω k).2.1)
      (by
        intro x hx
        obtain ⟨k, -, rfl⟩ := List.mem_map.1 hx
        exact boxPoint_mem hbox (hω k)) n (outcomes ω n) (hω n)
    obtain ⟨S2, f1, f2⟩ := iterations_snoc (outcomes ω n) _ 0 _ S _ k h1 (by rw [h2]; simpa using h3)
    refine ⟨S2, q', e', ?_, ?_⟩
    · rw [List.range_succ, List.map_append, List.map_singleton]
      exact f1
    · rw [f2, List.range_succ, List.map_append, List.map_singleton]
      rfl

theorem isProb_drawLaw [NeZero d] : IsProbabilityMeasure (drawLaw d) := by
  have : IsProbabilityMeasure (ProbabilityTheory.uniformOn (Set.univ : Set (Fin d))) :=
    ProbabilityTheory.uniformOn_isProbabilityMeasure Set.finite_univ Set.univ_nonempty
  unfold drawLaw
  infer_instance

theorem drawLaw_snd [NeZero d] : (drawLaw d).map (fun ξ => ξ.2.1) = uniformDraw d := by
  have : IsProbabilityMeasure (ProbabilityTheory.uniformOn (Set.univ : Set (Fin d))) :=
    ProbabilityTheory.uniformOn_isProbabilityMeasure Set.finite_univ Set.univ_nonempty
  have h : (fun ξ : Draws d => ξ.2.1) = Prod.fst ∘ Prod.snd := rfl
  rw [h, ← Measure.map_map measurable_fst measurable_snd]
  unfold drawLaw
  rw [Measure.map_snd_prod]
  simp

theorem ae_inside [NeZero d] : ∀ᵐ ω ∂(drawStream d), ∀ k i, 0 < (ω k).2.1 i ∧ (ω k).2.1 i < 1 := by
  have hprob : IsProbabilityMeasure (drawLaw d) := isProb_drawLaw
  rw [ae_all_iff]
  intro k
  have h1 : ∀ᵐ u ∂(uniformDraw d), ∀ i, 0 < u i ∧ u i < 1 := by
    unfold uniformDraw
    have hm := measurableSet_unitCube (d := d)
    have h0 : ∀ᵐ u : Pt ℝ d, ∀ i, u i ≠ 0 := by
      rw [ae_all_iff]
      intro i
      exact Measure.ae_eval_ne (μ := fun _ : Fin d => (volume : Measure ℝ)) i 0
    rw [ae_restrict_iff' hm]
    filter_upwards [h0] with u hu1 hu i
    have := hu i (Set.mem_univ _)
    exact ⟨lt_of_le_of_ne this.1 (Ne.symm (hu1 i)), this.2⟩
  have h2 : ∀ᵐ ξ ∂(drawLaw d), ∀ i, 0 < ξ.2.1 i ∧ ξ.2.1 i < 1 := by
    rw [← drawLaw_snd] at h1
    exact ae_of_ae_map (by fun_prop) h1
  exact (measurePreserving_eval_infinitePi (fun _ : ℕ => drawLaw d) k).quasiMeasurePreserving.ae h2

theorem inBox_ae (lo hi : Pt ℝ d) : {x : Pt ℝ d | InBox lo hi x} =ᵐ[volume] MCInt.box lo hi := by
  have : {x : Pt ℝ d | InBox lo hi x} = Set.univ.pi fun i => Set.Ioc (lo i) (hi i) := by
    ext x
    simp [InBox]
  rw [this]
  exact (Measure.univ_pi_Ioc_ae_eq_Icc (μ := fun _ => volume)).trans (Measure.univ_pi_Ico_ae_eq_Icc (μ := fun _ => volume)).symm

/-- C138: what holds. Let the target density stay between `a > 0` and `b` on the box, close enough together for the target
ESS `e`: `e (a + b)² ≤ 4 a b` (for `e = 0.9` a factor of up to 1.9). Then with probability one the averages of any
integrable function tend to its mean under the target. Missing with respect to C138: targets that vary more than that. -/
theorem C138_partial [NeZero d] (hbox : ∀ i, lo i < hi i) {p f : Pt ℝ d → ℝ} (hpm : Measurable p) (hfm : Measurable f)
    (hf : IntegrableOn f {x | InBox lo hi x}) {a b : ℝ} {c : Cfg ℝ} (ha : 0 < a)
    (hp : ∀ x, InBox lo hi x → a ≤ p x ∧ p x ≤ b) (he0 : 0 ≤ c.essTarget) (he : c.essTarget * (a + b) ^ 2 ≤ 4 * a * b) :
    ∀ᵐ ω ∂(drawStream d), Settles c p lo hi f (targetMean f p lo hi) ω := by
  have hprob : IsProbabilityMeasure (drawLaw d) := isProb_drawLaw
  have hmeas : MeasurableSet {x : Pt ℝ d | InBox lo hi x} := by
    have : {x : Pt ℝ d | InBox lo hi x} = Set.univ.pi fun i => Set.Ioc (lo i) (hi i) := by
      ext x
      simp [InBox]
    rw [this]
    exact MeasurableSet.univ_pi fun i => measurableSet_Ioc
  have hfin : volume {x : Pt ℝ d | InBox lo hi x} ≠ ⊤ := by
    have : {x : Pt ℝ d | InBox lo hi x} = Set.univ.pi fun i => Set.Ioc (lo i) (hi i) := by
      ext x
      simp [InBox]
    rw [this, Real.volume_pi_Ioc]
    exact ENNReal.prod_ne_top fun i _ => ENNReal.ofReal_ne_top
  have hpint : IntegrableOn p {x | InBox lo hi x} := by
    refine Measure.integrableOn_of_bounded (M := b) hfin hpm.aestronglyMeasurable ?_
    rw [ae_restrict_iff' hmeas]
    refine Eventually.of_forall fun x hx => ?_
    have := hp x hx
    rw [Real.norm_eq_abs, abs_of_pos (by linarith)]
    exact this.2
  have hfpint : IntegrableOn (fun x => f x * p x) {x | InBox lo hi x} := by
    refine Integrable.mul_bdd (c := b) hf hpm.aestronglyMeasurable ?_
    rw [ae_restrict_iff' hmeas]
    refine Eventually.of_forall fun x hx => ?_
    have := hp x hx
    rw [Real.norm_eq_abs, abs_of_pos (by linarith)]
    exact this.2
  have hlln : ∀ g : Pt ℝ d → ℝ, Measurable g → IntegrableOn g {x | InBox lo hi x} →
      ∀ᵐ ω ∂(drawStream d), Tendsto (fun n : ℕ => (∑ k ∈ Finset.range n, g (boxPoint lo hi (ω k).2.1)) / n) atTop
        (𝓝 ((∫ x in {x | InBox lo hi x}, g x) / MetricCompute.vol lo hi)) := by
    intro g hg hgi
    obtain ⟨h1, h2⟩ := MetricCompute.integral_pt lo hi hbox g hg (hgi.congr_set_ae (inBox_ae lo hi).symm)
    rw [← setIntegral_congr_set (inBox_ae lo hi)] at h2
    have hm : Measurable fun ξ : Draws d => ξ.2.1 := by fun_prop
    have hpt : Measurable fun u => g (MetricCompute.pt lo hi u) := hg.comp (MetricCompute.pt_measurable lo hi)
    rw [← drawLaw_snd] at h1 h2
    rw [integral_map hm.aemeasurable hpt.aestronglyMeasurable] at h2
    rw [← h2]
    exact MetricCompute.slln_iid (drawLaw d) (fun ξ => g (boxPoint lo hi ξ.2.1)) (hpt.comp hm)
      ((integrable_map_measure hpt.aestronglyMeasurable hm.aemeasurable).1 h1)
  filter_upwards [hlln _ (hfm.mul hpm) hfpint, hlln _ hpm hpint, ae_inside] with ω h1 h2 hω
  have hVpos : 0 < MetricCompute.vol lo hi := MetricCompute.vol_pos hbox
  have hZ : 0 < ∫ x in {x | InBox lo hi x}, p x := by
    have h3 : ∫ x in {x | InBox lo hi x}, a ≤ ∫ x in {x | InBox lo hi x}, p x :=
      setIntegral_mono_on (integrableOn_const hfin) hpint hmeas fun x hx => (hp x hx).1
    refine lt_of_lt_of_le ?_ h3
    rw [setIntegral_const, smul_eq_mul]
    refine mul_pos ?_ ha
    have : {x : Pt ℝ d | InBox lo hi x} = Set.univ.pi fun i => Set.Ioc (lo i) (hi i) := by
      ext x
      simp [InBox]
    rw [this, measureReal_def, Real.volume_pi_Ioc_toReal fun i => (hbox i).le]
    exact Finset.prod_pos fun i _ => sub_pos.2 (hbox i)
  have h3 := h1.div h2 (div_pos hZ hVpos).ne'
  rw [div_div_div_cancel_right₀ hVpos.ne'] at h3
  intro δ hδ
  obtain ⟨N, hN⟩ := (Metric.tendsto_atTop.1 h3) δ hδ
  refine ⟨max N 1, fun n hn => ?_⟩
  obtain ⟨S1, q, e, r1, r2⟩ := root_run hbox ha hp he0 he ω hω n
  obtain ⟨S, g1, -, g3, g4⟩ := call_of r1
  set xs := (List.range n).map fun k => boxPoint lo hi (ω k).2.1 with hxs
  refine ⟨S, xs.map fun x => p x * ∏ i, (hi i - lo i), g1, ?_, ?_⟩
  · rw [g4, r2]
    show (xs.map fun x => XF.fin (p x * ∏ i, (hi i - lo i))) ++ [] = _
    simp
  · have e1 : S.samples = xs := by
      rw [g3, r2]
      show xs ++ [] = _
      simp
    have hn0 : (n : ℝ) ≠ 0 := by
      have : 1 ≤ n := (le_max_right _ _).trans hn
      exact_mod_cast (by omega : n ≠ 0)
    have e2 : weightedMean f S.samples (xs.map fun x => p x * ∏ i, (hi i - lo i)) =
        ((∑ k ∈ Finset.range n, (f * p) (boxPoint lo hi (ω k).2.1)) / n) / ((∑ k ∈ Finset.range n, p (boxPoint lo hi (ω k).2.1)) / n) := by
      have hV : ∏ i, (hi i - lo i) ≠ 0 := hVpos.ne'
      unfold weightedMean
      rw [e1, List.zipWith_map_right, List.zipWith_self, div_div_div_cancel_right₀ hn0, List.sum_map_mul_right]
      have e3 : (xs.map fun x => f x * (p x * ∏ i, (hi i - lo i))).sum = (xs.map fun x => f x * p x).sum * ∏ i, (hi i - lo i) := by
        rw [← List.sum_map_mul_right]
        congr 1
        refine List.map_congr_left fun x _ => ?_
        ring
      rw [e3, mul_div_mul_right _ _ hV, hxs, List.map_map, List.map_map, MetricCompute.sum_range_map, MetricCompute.sum_range_map]
      rfl
    rw [e2]
    exact hN n ((le_max_left _ _).trans hn)

/-- Non-vacuity of `C138_partial`: the target `3 + x₀` (between 3 and 4) on the unit cube with target ESS 0.9. -/
example {d : ℕ} [NeZero d] (σ : ℝ) (m : ℕ) (f : Pt ℝ d → ℝ) (hfm : Measurable f)
    (hf : IntegrableOn f {x | InBox (fun _ => 0) (fun _ => 1) x}) : ∀ᵐ ω ∂(drawStream d),
    Settles ⟨realBoost σ, m, 9 / 10⟩ (fun x => 3 + x 0) (fun _ => 0) (fun _ => 1) f
      (targetMean f (fun x => 3 + x 0) (fun _ => 0) (fun _ => 1)) ω :=
  C138_partial (fun _ => one_pos) (by fun_prop) hfm hf (a := 3) (b := 4) (by norm_num)
    (fun x hx => ⟨by linarith [(hx 0).1], by linarith [(hx 0).2]⟩) (by norm_num) (by norm_num)

/-- The parameters of the benchmark's definition file meet the hypotheses of `C138_refuted`. -/
example : ∀ᵐ ω ∂(drawStream 1), ¬ Settles ⟨realBoost (Real.sqrt (4.14 * Real.logb 2 (2 * Real.exp 1)) * 0.01), 10, 9 / 10⟩
    twoLevel ![-1] ![1] onLeft (1 / 4) ω :=
  (C138_refuted (by positivity) (by norm_num) (by norm_num)).2.mono fun _ h => h.2

end HiD
end Verif
