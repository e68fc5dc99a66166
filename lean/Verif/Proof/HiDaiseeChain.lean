import Verif.Spec.HiDaiseeLimit
import Verif.Proof.Doeblin
import Mathlib.MeasureTheory.Function.SpecialFunctions.Basic
import Mathlib.Analysis.SpecialFunctions.Log.Deriv
import Mathlib.Analysis.Asymptotics.SpecificAsymptotics

/-!
# The numbers of samples in the two halves of an interval (C138)
-/

set_option linter.unusedSectionVars false
set_option autoImplicit false

namespace Verif
namespace HiD

open MeasureTheory Filter Topology
open Adaptive (st nextMean)

/-- Whether the interval has been cut, whether the last sample went left, masses of the halves, number of samples in the
halves. -/
abbrev Chain := Prop × Prop × ℝ × ℝ × ℝ × ℝ

namespace Chain

abbrev cut (s : Chain) : Prop := s.1
abbrev fl (s : Chain) : Prop := s.2.1
abbrev ql (s : Chain) : ℝ := s.2.2.1
abbrev qr (s : Chain) : ℝ := s.2.2.2.1
abbrev nl (s : Chain) : ℝ := s.2.2.2.2.1
abbrev nr (s : Chain) : ℝ := s.2.2.2.2.2

end Chain

/-- Optimism boost. -/
noncomputable def bst (σ t n : ℝ) : ℝ := σ * Real.sqrt (Real.log t / n)

/-- Effective sample size of `a` weights 2 and `b` weights 6. -/
noncomputable def essOf (a b : ℝ) : ℝ := (2 * a + 6 * b) * (2 * a + 6 * b) / (4 * a + 36 * b)

/-- The rule for cutting. -/
def cutRule (m e a b : ℝ) : Prop := m ≤ a + b ∧ essOf a b < e * (a + b)

/-- The new mass of the left half. -/
noncomputable def massL (σ t a b : ℝ) : ℝ := (1 + bst σ t a) / (1 + bst σ t a + (3 + bst σ t b))

/-- The new mass of the right half. -/
noncomputable def massR (σ t a b : ℝ) : ℝ := (3 + bst σ t b) / (1 + bst σ t a + (3 + bst σ t b))

/-- The next sample falls into the left half. -/
def goesLeft (s : Chain) (ξ : Draws 1) : Prop :=
  (s.cut ∧ ξ.1 0 < s.ql / (s.qr + s.ql)) ∨ (¬ s.cut ∧ ξ.2.1 0 < 1 / 2)

open Classical in
/-- One iteration. -/
noncomputable def chainStep (σ m e : ℝ) (s : Chain) (ξ : Draws 1) : Chain :=
  let a := if goesLeft s ξ then s.nl + 1 else s.nl
  let b := if goesLeft s ξ then s.nr else s.nr + 1
  (s.cut ∨ cutRule m e a b, goesLeft s ξ,
    if s.cut ∧ goesLeft s ξ then massL σ (s.nl + s.nr) a b else s.ql,
    if s.cut ∧ ¬ goesLeft s ξ then massR σ (s.nl + s.nr) a b else s.qr, a, b)

/-- The state of a new sampler. -/
noncomputable def chain0 : Chain := (False, False, 1 / 2, 1 / 2, 0, 0)

theorem measurable_goesLeft : Measurable (fun z : Chain × Draws 1 => goesLeft z.1 z.2) := by
  have hc : Measurable fun z : Chain × Draws 1 => z.1.cut := by unfold Chain.cut; fun_prop
  have h0 : Measurable fun z : Chain × Draws 1 => z.2.1 0 := by fun_prop
  have h1 : Measurable fun z : Chain × Draws 1 => z.2.2.1 0 := by fun_prop
  have hq : Measurable fun z : Chain × Draws 1 => z.1.ql / (z.1.qr + z.1.ql) := by unfold Chain.ql Chain.qr; fun_prop
  unfold goesLeft
  exact (hc.and (measurableSet_setOf.1 (measurableSet_lt h0 hq))).or
    (hc.not.and (measurableSet_setOf.1 (measurableSet_lt h1 measurable_const)))

theorem measurable_chainStep (σ m e : ℝ) : Measurable (Function.uncurry (chainStep σ m e)) := by
  classical
  have hg := measurable_goesLeft
  have hc : Measurable fun z : Chain × Draws 1 => z.1.cut := by unfold Chain.cut; fun_prop
  have hql : Measurable fun z : Chain × Draws 1 => z.1.ql := by unfold Chain.ql; fun_prop
  have hqr : Measurable fun z : Chain × Draws 1 => z.1.qr := by unfold Chain.qr; fun_prop
  have hnl : Measurable fun z : Chain × Draws 1 => z.1.nl := by unfold Chain.nl; fun_prop
  have hnr : Measurable fun z : Chain × Draws 1 => z.1.nr := by unfold Chain.nr; fun_prop
  have ha : Measurable fun z : Chain × Draws 1 => if goesLeft z.1 z.2 then z.1.nl + 1 else z.1.nl :=
    Measurable.ite (measurableSet_setOf.2 hg) (hnl.add_const 1) hnl
  have hb : Measurable fun z : Chain × Draws 1 => if goesLeft z.1 z.2 then z.1.nr else z.1.nr + 1 :=
    Measurable.ite (measurableSet_setOf.2 hg) hnr (hnr.add_const 1)
  have ht := hnl.add hnr
  have hbst : ∀ {f g : Chain × Draws 1 → ℝ}, Measurable f → Measurable g → Measurable fun z => bst σ (f z) (g z) := by
    intro f g hf hg
    unfold bst
    exact ((hf.log.div hg).sqrt).const_mul σ
  have hL : Measurable fun z : Chain × Draws 1 => massL σ (z.1.nl + z.1.nr)
      (if goesLeft z.1 z.2 then z.1.nl + 1 else z.1.nl) (if goesLeft z.1 z.2 then z.1.nr else z.1.nr + 1) := by
    unfold massL
    exact ((hbst ht ha).const_add 1).div (((hbst ht ha).const_add 1).add ((hbst ht hb).const_add 3))
  have hR : Measurable fun z : Chain × Draws 1 => massR σ (z.1.nl + z.1.nr)
      (if goesLeft z.1 z.2 then z.1.nl + 1 else z.1.nl) (if goesLeft z.1 z.2 then z.1.nr else z.1.nr + 1) := by
    unfold massR
    exact ((hbst ht hb).const_add 3).div (((hbst ht ha).const_add 1).add ((hbst ht hb).const_add 3))
  have hrule : Measurable fun z : Chain × Draws 1 => cutRule m e
      (if goesLeft z.1 z.2 then z.1.nl + 1 else z.1.nl) (if goesLeft z.1 z.2 then z.1.nr else z.1.nr + 1) := by
    unfold cutRule essOf
    exact (measurableSet_setOf.1 (measurableSet_le measurable_const (ha.add hb))).and
      (measurableSet_setOf.1 (measurableSet_lt (by fun_prop) (by fun_prop)))
  exact (hc.or hrule).prodMk (hg.prodMk ((Measurable.ite (measurableSet_setOf.2 (hc.and hg)) hL hql).prodMk
    ((Measurable.ite (measurableSet_setOf.2 (hc.and hg.not)) hR hqr).prodMk (ha.prodMk hb))))

instance : IsProbabilityMeasure ((volume : Measure ℝ).restrict (Set.Ico 0 1)) := ⟨by simp⟩

instance : IsProbabilityMeasure (drawLaw 1) := by unfold drawLaw; infer_instance

theorem law_first {p : ℝ} (h0 : 0 ≤ p) (h1 : p ≤ 1) : (drawLaw 1).real {ξ | ξ.1 0 < p} = p := by
  have : (drawLaw 1).map (fun ξ => ξ.1 0) = (volume : Measure ℝ).restrict (Set.Ico 0 1) := by
    have e1 : (drawLaw 1).map Prod.fst = Measure.infinitePi fun _ : ℕ => (volume : Measure ℝ).restrict (Set.Ico 0 1) := by
      unfold drawLaw
      rw [Measure.map_fst_prod]
      simp
    have e2 := (measurePreserving_eval_infinitePi (fun _ : ℕ => (volume : Measure ℝ).restrict (Set.Ico 0 1)) 0).map_eq
    rw [← e1, Measure.map_map (by fun_prop) (by fun_prop)] at e2
    exact e2
  have h2 : (drawLaw 1).real {ξ | ξ.1 0 < p} = ((drawLaw 1).map (fun ξ => ξ.1 0)).real (Set.Iio p) := by
    rw [map_measureReal_apply (by fun_prop) measurableSet_Iio]
    rfl
  rw [h2, this, measureReal_restrict_apply measurableSet_Iio]
  have : Set.Iio p ∩ Set.Ico 0 1 = Set.Ico 0 p := by
    ext x
    simp only [Set.mem_inter_iff, Set.mem_Iio, Set.mem_Ico]
    constructor
    · rintro ⟨a, b, c⟩; exact ⟨b, a⟩
    · rintro ⟨a, b⟩; exact ⟨b, a, b.trans_le h1⟩
  rw [this]
  simp [h0]

theorem law_second : (drawLaw 1).real {ξ | ξ.2.1 0 < 1 / 2} = 1 / 2 := by
  have e1 : (drawLaw 1).map (fun ξ => ξ.2.1) = uniformDraw 1 := by
    have : (fun ξ : Draws 1 => ξ.2.1) = Prod.fst ∘ Prod.snd := rfl
    rw [this, ← Measure.map_map measurable_fst measurable_snd]
    unfold drawLaw
    rw [Measure.map_snd_prod]
    simp
  have h2 : (drawLaw 1).real {ξ | ξ.2.1 0 < 1 / 2} = ((drawLaw 1).map (fun ξ => ξ.2.1)).real {u | u 0 < 1 / 2} := by
    rw [map_measureReal_apply (by fun_prop) (measurableSet_lt (by fun_prop) measurable_const)]
    rfl
  rw [h2, e1]
  unfold uniformDraw
  rw [measureReal_restrict_apply (measurableSet_lt (by fun_prop) measurable_const)]
  have : {u : Pt ℝ 1 | u 0 < 1 / 2} ∩ unitCube 1 = Set.univ.pi fun _ => Set.Ico (0 : ℝ) (1 / 2) := by
    ext u
    simp only [unitCube, Set.mem_inter_iff, Set.mem_setOf_eq, Set.mem_univ_pi, Set.mem_Ico, Fin.forall_fin_one]
    constructor
    · rintro ⟨a, b, c⟩; exact ⟨b, a⟩
    · rintro ⟨a, b⟩; exact ⟨b, a, b.trans (by norm_num)⟩
  rw [this, measureReal_def, Real.volume_pi_Ico_toReal (by intro i; norm_num)]
  simp

/-- 1 if the last sample went left. -/
noncomputable def wentLeft (s : Chain) : ℝ := open Classical in if s.fl then 1 else 0

theorem measurable_wentLeft : Measurable wentLeft := by
  classical
  unfold wentLeft
  refine Measurable.ite (measurableSet_setOf.2 ?_) measurable_const measurable_const
  unfold Chain.fl
  fun_prop

theorem nextMean_eq (σ m e : ℝ) (s : Chain) :
    nextMean (drawLaw 1) (chainStep σ m e) wentLeft s = (drawLaw 1).real {ξ | goesLeft s ξ} := by
  classical
  have hm : MeasurableSet {ξ | goesLeft s ξ} :=
    measurableSet_setOf.2 (measurable_goesLeft.comp measurable_prodMk_left)
  unfold nextMean
  have : (fun ξ => wentLeft (chainStep σ m e s ξ)) = {ξ | goesLeft s ξ}.indicator 1 := by
    funext ξ
    unfold wentLeft chainStep Set.indicator
    simp only [Set.mem_setOf_eq, Pi.one_apply]
  rw [this, integral_indicator_one hm]

theorem nextMean_cut (σ m e : ℝ) {s : Chain} (hc : s.cut) (h1 : 0 < s.ql) (h2 : 0 < s.qr) :
    nextMean (drawLaw 1) (chainStep σ m e) wentLeft s = s.ql / (s.qr + s.ql) := by
  rw [nextMean_eq, ← law_first (p := s.ql / (s.qr + s.ql)) (by positivity) (by rw [div_le_one (by positivity)]; linarith)]
  congr 1
  ext ξ
  simp [goesLeft, hc]

theorem nextMean_whole (σ m e : ℝ) {s : Chain} (hc : ¬ s.cut) :
    nextMean (drawLaw 1) (chainStep σ m e) wentLeft s = 1 / 2 := by
  rw [nextMean_eq, ← law_second]
  congr 1
  ext ξ
  simp [goesLeft, hc]

/-! ### Along one stream -/

section path
variable {σ m e : ℝ} (ω : ℕ → Draws 1)

local notation "X" => st (chainStep σ m e) chain0 ω

theorem X_succ (n : ℕ) : X (n + 1) = chainStep σ m e (X n) (ω n) := rfl

theorem X_cut_mono {n k : ℕ} (h : n ≤ k) (hc : (X n).cut) : (X k).cut := by
  induction k, h using Nat.le_induction with
  | base => exact hc
  | succ k _ ih => exact Or.inl ih

theorem X_fl (n : ℕ) : (X (n + 1)).fl ↔ goesLeft (X n) (ω n) := Iff.rfl

theorem X_nl (n : ℕ) : (X (n + 1)).nl = (X n).nl + wentLeft (X (n + 1)) := by
  classical
  by_cases h : goesLeft (X n) (ω n)
  · have h1 : wentLeft (X (n + 1)) = 1 := if_pos h
    rw [h1]
    exact if_pos h
  · have h1 : wentLeft (X (n + 1)) = 0 := if_neg h
    rw [h1, add_zero]
    exact if_neg h

theorem X_total (n : ℕ) : (X n).nl + (X n).nr = n := by
  classical
  induction n with
  | zero => simp [st, chain0, Chain.nl, Chain.nr]
  | succ n ih =>
    have h1 : (X (n + 1)).nl = if goesLeft (X n) (ω n) then (X n).nl + 1 else (X n).nl := rfl
    have h2 : (X (n + 1)).nr = if goesLeft (X n) (ω n) then (X n).nr else (X n).nr + 1 := rfl
    rw [h1, h2]
    push_cast
    rw [← ih]
    split <;> ring

theorem X_sum (n : ℕ) : ∑ k ∈ Finset.range n, wentLeft (X (k + 1)) = (X n).nl := by
  induction n with
  | zero => rfl
  | succ n ih => rw [Finset.sum_range_succ, ih, X_nl]

theorem X_nonneg (n : ℕ) : 0 ≤ (X n).nl ∧ 0 ≤ (X n).nr := by
  classical
  induction n with
  | zero => simp [st, chain0]
  | succ n ih =>
    have h1 : (X (n + 1)).nl = if goesLeft (X n) (ω n) then (X n).nl + 1 else (X n).nl := rfl
    have h2 : (X (n + 1)).nr = if goesLeft (X n) (ω n) then (X n).nr else (X n).nr + 1 := rfl
    rw [h1, h2]
    obtain ⟨a, b⟩ := ih
    split <;> constructor <;> linarith

theorem bst_nonneg (hσ : 0 ≤ σ) (t n : ℝ) : 0 ≤ bst σ t n := by unfold bst; positivity

theorem X_q_pos (hσ : 0 ≤ σ) (n : ℕ) : 0 < (X n).ql ∧ 0 < (X n).qr := by
  classical
  induction n with
  | zero => simp [st, chain0, Chain.ql, Chain.qr]
  | succ n ih =>
    constructor
    · show 0 < (if _ then _ else _ : ℝ)
      split
      · unfold massL
        have h1 := bst_nonneg hσ
        refine div_pos ?_ ?_
        · linarith [h1 ((X n).nl + (X n).nr) (if goesLeft (X n) (ω n) then (X n).nl + 1 else (X n).nl)]
        · linarith [h1 ((X n).nl + (X n).nr) (if goesLeft (X n) (ω n) then (X n).nl + 1 else (X n).nl),
            h1 ((X n).nl + (X n).nr) (if goesLeft (X n) (ω n) then (X n).nr else (X n).nr + 1)]
      · exact ih.1
    · show 0 < (if _ then _ else _ : ℝ)
      split
      · unfold massR
        have h1 := bst_nonneg hσ
        refine div_pos ?_ ?_
        · linarith [h1 ((X n).nl + (X n).nr) (if goesLeft (X n) (ω n) then (X n).nr else (X n).nr + 1)]
        · linarith [h1 ((X n).nl + (X n).nr) (if goesLeft (X n) (ω n) then (X n).nl + 1 else (X n).nl),
            h1 ((X n).nl + (X n).nr) (if goesLeft (X n) (ω n) then (X n).nr else (X n).nr + 1)]
      · exact ih.2

end path

/-- A sequence that again and again takes the current value of a convergent sequence, and is constant in between. -/
theorem tendsto_of_refresh {a g : ℕ → ℝ} {l : ℝ} {P : ℕ → Prop} {K : ℕ} (h1 : ∀ k ≥ K, P k → a (k + 1) = g k)
    (h2 : ∀ k ≥ K, ¬ P k → a (k + 1) = a k) (hP : ∃ᶠ k in atTop, P k) (hg : Tendsto g atTop (𝓝 l)) : Tendsto a atTop (𝓝 l) := by
  rw [Metric.tendsto_atTop] at hg ⊢
  intro ε hε
  obtain ⟨N, hN⟩ := hg ε hε
  obtain ⟨k0, hk0, hp⟩ := frequently_atTop.1 hP (max N K)
  refine ⟨k0 + 1, fun k hk => ?_⟩
  induction k, hk using Nat.le_induction with
  | base => rw [h1 k0 ((le_max_right _ _).trans hk0) hp]; exact hN _ ((le_max_left _ _).trans hk0)
  | succ k hk ih =>
    have hk' : max N K ≤ k := by omega
    by_cases hp : P k
    · rw [h1 k ((le_max_right _ _).trans hk') hp]; exact hN _ ((le_max_left _ _).trans hk')
    · rw [h2 k ((le_max_right _ _).trans hk') hp]; exact ih

theorem log_div_tendsto : Tendsto (fun n : ℕ => Real.log n / n) atTop (𝓝 0) :=
  (Real.isLittleO_log_id_atTop.tendsto_div_nhds_zero).comp tendsto_natCast_atTop_atTop

theorem bst_tendsto (σ : ℝ) {a : ℕ → ℝ} {l : ℝ} (hl : 0 < l) (ha : Tendsto (fun n => a n / n) atTop (𝓝 l)) :
    Tendsto (fun n : ℕ => bst σ n (a n)) atTop (𝓝 0) := by
  have h1 : Tendsto (fun n : ℕ => (Real.log n / n) / (a n / n)) atTop (𝓝 (0 / l)) := log_div_tendsto.div ha hl.ne'
  rw [zero_div] at h1
  have h2 : Tendsto (fun n : ℕ => Real.log n / a n) atTop (𝓝 0) := by
    refine h1.congr' ?_
    filter_upwards [eventually_gt_atTop 0] with n hn
    have : (n : ℝ) ≠ 0 := by exact_mod_cast hn.ne'
    rw [div_div_div_cancel_right₀ this]
  have h3 := (h2.sqrt).const_mul σ
  rw [Real.sqrt_zero, mul_zero] at h3
  exact h3

theorem add_one_div {a : ℕ → ℝ} {l : ℝ} (ha : Tendsto (fun n : ℕ => a n / n) atTop (𝓝 l)) :
    Tendsto (fun n : ℕ => (a n + 1) / n) atTop (𝓝 l) := by
  have h := ha.add (tendsto_one_div_atTop_nhds_zero_nat (𝕜 := ℝ))
  rw [add_zero] at h
  refine h.congr fun n => ?_
  rw [← add_div]

theorem chain_limit {σ m e : ℝ} (hσ : 0 ≤ σ) (he : 4 / 5 < e) : ∀ᵐ ω ∂(drawStream 1),
    (∃ K, (st (chainStep σ m e) chain0 ω K).cut) ∧
    ¬ Tendsto (fun n : ℕ => (st (chainStep σ m e) chain0 ω n).nl / n) atTop (𝓝 (1 / 2)) := by
  classical
  have hM := Adaptive.martingale_slln (drawLaw 1) (measurable_chainStep σ m e) chain0 measurable_wentLeft (B := 1)
    (fun s => by unfold wentLeft; split <;> norm_num)
  unfold drawStream
  filter_upwards [hM] with ω hω
  set X := st (chainStep σ m e) chain0 ω with hX
  have key : ∀ l, Tendsto (fun k => nextMean (drawLaw 1) (chainStep σ m e) wentLeft (X k)) atTop (𝓝 l) →
      Tendsto (fun n : ℕ => (X n).nl / n) atTop (𝓝 l) := by
    intro l hl
    have h1 := hω.add hl.cesaro
    rw [zero_add] at h1
    refine h1.congr fun n => ?_
    rw [Finset.sum_sub_distrib, X_sum, ← hX]
    ring
  have hcut : ∃ K, (X K).cut := by
    by_contra hno
    push Not at hno
    have h1 := key (1 / 2) (by
      refine tendsto_const_nhds.congr fun k => ?_
      rw [nextMean_whole _ _ _ (hno k)])
    have h2 : Tendsto (fun n : ℕ => essOf ((X n).nl / n) (1 - (X n).nl / n)) atTop (𝓝 (essOf (1 / 2) (1 - 1 / 2))) := by
      unfold essOf
      refine Tendsto.div ?_ ?_ (by norm_num)
      · exact ((h1.const_mul 2).add ((h1.const_sub 1).const_mul 6)).mul ((h1.const_mul 2).add ((h1.const_sub 1).const_mul 6))
      · exact (h1.const_mul 4).add ((h1.const_sub 1).const_mul 36)
    have h3 : essOf (1 / 2) (1 - 1 / 2) < e := by
      have : essOf (1 / 2) (1 - 1 / 2) = 4 / 5 := by norm_num [essOf]
      rw [this]; exact he
    have h4 := (tendsto_order.1 h2).2 e h3
    have h5 : ∀ᶠ n : ℕ in atTop, m ≤ n := tendsto_natCast_atTop_atTop.eventually_ge_atTop m
    obtain ⟨n, hn1, hn2, hn0⟩ := ((h4.and (h5.and (eventually_gt_atTop 0)))).exists
    obtain ⟨k, rfl⟩ : ∃ k, n = k + 1 := ⟨n - 1, by omega⟩
    have hpos : (0 : ℝ) < (k + 1 : ℕ) := by exact_mod_cast hn0
    have ht := X_total (σ := σ) (m := m) (e := e) ω (k + 1)
    rw [← hX] at ht
    refine hno (k + 1) (Or.inr ⟨?_, ?_⟩)
    · show m ≤ (X (k + 1)).nl + (X (k + 1)).nr
      rw [ht]; exact hn2
    · show essOf (X (k + 1)).nl (X (k + 1)).nr < e * ((X (k + 1)).nl + (X (k + 1)).nr)
      rw [ht]
      have e1 : 1 - (X (k + 1)).nl / (k + 1 : ℕ) = (X (k + 1)).nr / (k + 1 : ℕ) := by
        rw [eq_div_iff hpos.ne', sub_mul, div_mul_cancel₀ _ hpos.ne']
        linarith
      rw [e1] at hn1
      have e2 : essOf ((X (k + 1)).nl / (k + 1 : ℕ)) ((X (k + 1)).nr / (k + 1 : ℕ)) =
          essOf (X (k + 1)).nl (X (k + 1)).nr / (k + 1 : ℕ) := by
        unfold essOf
        have := X_nonneg (σ := σ) (m := m) (e := e) ω (k + 1)
        rw [← hX] at this
        have hd : 4 * (X (k + 1)).nl + 36 * (X (k + 1)).nr ≠ 0 := by nlinarith [this.1, this.2]
        generalize (X (k + 1)).nl = a at *
        generalize (X (k + 1)).nr = b at *
        have hc : ((k + 1 : ℕ) : ℝ) ≠ 0 := hpos.ne'
        generalize ((k + 1 : ℕ) : ℝ) = c at *
        have e3 : 4 * (a / c) + 36 * (b / c) = (4 * a + 36 * b) / c := by ring
        have e4 : 2 * (a / c) + 6 * (b / c) = (2 * a + 6 * b) / c := by ring
        rw [e3, e4]
        field_simp
      rw [e2, div_lt_iff₀ hpos] at hn1
      exact hn1
  refine ⟨hcut, fun hhalf => ?_⟩
  obtain ⟨K, hK⟩ := hcut
  have hKc : ∀ k ≥ K, (X k).cut := fun k hk => X_cut_mono (σ := σ) (m := m) (e := e) ω hk hK
  have htot : ∀ n, (X n).nl + (X n).nr = n := X_total (σ := σ) (m := m) (e := e) ω
  have hq := X_q_pos (σ := σ) (m := m) (e := e) ω hσ
  rw [← hX] at hq
  have hhalf' : Tendsto (fun n : ℕ => (X n).nr / n) atTop (𝓝 (1 / 2)) := by
    have h1 := hhalf.const_sub 1
    norm_num at h1
    refine h1.congr' ?_
    filter_upwards [eventually_gt_atTop 0] with n hn
    have : (n : ℝ) ≠ 0 := by exact_mod_cast hn.ne'
    rw [eq_div_iff this, sub_mul, div_mul_cancel₀ _ this, ← htot n]
    ring
  have hl : ∃ᶠ k in atTop, goesLeft (X k) (ω k) := by
    intro hno
    obtain ⟨N, hN⟩ := eventually_atTop.1 hno
    have hc : ∀ n ≥ N, (X n).nl = (X N).nl := by
      intro n hn
      induction n, hn using Nat.le_induction with
      | base => rfl
      | succ n hn ih =>
        rw [← ih]
        exact if_neg (hN n hn)
    have h1 : Tendsto (fun n : ℕ => (X N).nl / n) atTop (𝓝 0) := tendsto_const_div_atTop_nhds_zero_nat _
    have h2 : Tendsto (fun n : ℕ => (X n).nl / n) atTop (𝓝 0) := by
      refine h1.congr' ?_
      filter_upwards [eventually_ge_atTop N] with n hn
      rw [hc n hn]
    have := tendsto_nhds_unique h2 hhalf
    norm_num at this
  have hr : ∃ᶠ k in atTop, ¬ goesLeft (X k) (ω k) := by
    intro hno
    obtain ⟨N, hN⟩ := eventually_atTop.1 hno
    have hc : ∀ n ≥ N, (X n).nr = (X N).nr := by
      intro n hn
      induction n, hn using Nat.le_induction with
      | base => rfl
      | succ n hn ih =>
        rw [← ih]
        exact if_pos (not_not.1 (hN n hn))
    have h1 : Tendsto (fun n : ℕ => (X N).nr / n) atTop (𝓝 0) := tendsto_const_div_atTop_nhds_zero_nat _
    have h2 : Tendsto (fun n : ℕ => (X n).nr / n) atTop (𝓝 0) := by
      refine h1.congr' ?_
      filter_upwards [eventually_ge_atTop N] with n hn
      rw [hc n hn]
    have := tendsto_nhds_unique h2 hhalf'
    norm_num at this
  have hql : Tendsto (fun k => (X k).ql) atTop (𝓝 (1 / 4)) := by
    refine tendsto_of_refresh (P := fun k => goesLeft (X k) (ω k)) (K := K)
      (g := fun k : ℕ => massL σ k ((X k).nl + 1) (X k).nr) ?_ ?_ hl ?_
    · intro k hk hp
      have h1 : (X (k + 1)).ql = massL σ ((X k).nl + (X k).nr) (if goesLeft (X k) (ω k) then (X k).nl + 1 else (X k).nl)
          (if goesLeft (X k) (ω k) then (X k).nr else (X k).nr + 1) := if_pos ⟨hKc k hk, hp⟩
      rw [h1, if_pos hp, if_pos hp, htot]
    · intro k hk hp
      exact if_neg fun h => hp h.2
    · have b1 := bst_tendsto σ (by norm_num) (add_one_div hhalf)
      have b2 := bst_tendsto σ (by norm_num) hhalf'
      have := (b1.const_add 1).div ((b1.const_add 1).add (b2.const_add 3)) (by norm_num)
      norm_num at this
      exact this
  have hqr : Tendsto (fun k => (X k).qr) atTop (𝓝 (3 / 4)) := by
    refine tendsto_of_refresh (P := fun k => ¬ goesLeft (X k) (ω k)) (K := K)
      (g := fun k : ℕ => massR σ k (X k).nl ((X k).nr + 1)) ?_ ?_ hr ?_
    · intro k hk hp
      have h1 : (X (k + 1)).qr = massR σ ((X k).nl + (X k).nr) (if goesLeft (X k) (ω k) then (X k).nl + 1 else (X k).nl)
          (if goesLeft (X k) (ω k) then (X k).nr else (X k).nr + 1) := if_pos ⟨hKc k hk, hp⟩
      rw [h1, if_neg hp, if_neg hp, htot]
    · intro k hk hp
      exact if_neg fun h => hp h.2
    · have b1 := bst_tendsto σ (by norm_num) (add_one_div hhalf')
      have b2 := bst_tendsto σ (by norm_num) hhalf
      have := (b1.const_add 3).div ((b2.const_add 1).add (b1.const_add 3)) (by norm_num)
      norm_num at this
      exact this
  have hp : Tendsto (fun k => (X k).ql / ((X k).qr + (X k).ql)) atTop (𝓝 (1 / 4)) := by
    have := hql.div (hqr.add hql) (by norm_num)
    norm_num at this
    exact this
  have hlast := key (1 / 4) (hp.congr' (by
    filter_upwards [eventually_ge_atTop K] with k hk
    rw [nextMean_cut _ _ _ (hKc k hk) (hq k).1 (hq k).2]))
  have := tendsto_nhds_unique hlast hhalf
  norm_num at this

end HiD
end Verif
