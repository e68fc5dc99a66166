import Verif.Proof.Uniform
import Verif.Spec.Basic
import Mathlib.Tactic.NormNum
import Mathlib.Tactic.FinCases
import Mathlib.MeasureTheory.Measure.Lebesgue.VolumeOfBalls

/-!
# Properties C06, C07, C08, C15: uniform distribution and shapes
-/

set_option linter.unusedSectionVars false
set_option autoImplicit false

namespace Verif
open MeasureTheory

/-- The radius argument `rs` describes the half widths `rad`: one common value or one value per dimension. -/
def RadiusFor {K : Type*} {d : ℕ} (rs : List K) (rad : Fin d → K) : Prop :=
  (∃ r, rs = [r] ∧ ∀ i, rad i = r) ∨ rs = List.ofFn rad

theorem Uniform.mk'_of_radius {K : Type*} [Field K] [LinearOrder K] {d : ℕ} (c : Fin d → K) (rs : List K)
    (rad : Fin d → K) (h : RadiusFor rs rad) :
    ∃ U, Uniform.mk' c rs = .ok U ∧ U.loc = c ∧ U.scale = rad ∧ U.volume = ∏ i, (2 * rad i) := by
  rcases h with ⟨r, rfl, hr⟩ | rfl
  · have hr' : rad = fun _ => r := funext hr
    subst hr'
    exact ⟨_, rfl, rfl, rfl, by simp [mul_comm]⟩
  · by_cases h1 : d = 1
    · subst h1
      refine ⟨_, rfl, rfl, ?_, ?_⟩
      · funext i; fin_cases i; rfl
      · simp [mul_comm]
    · unfold Uniform.mk'
      split
      · next r heq =>
        have := congrArg List.length heq
        simp at this
        exact absurd this h1
      · have hl : (List.ofFn rad).length = d := by simp
        rw [dif_pos hl]
        refine ⟨_, rfl, rfl, ?_, ?_⟩
        · funext i; simp
        · simp [mul_comm]

/-- The density of the uniform distribution on the box with centre `c` and half widths `rad`. -/
noncomputable def uniformDensity {d : ℕ} (c rad : Fin d → ℝ) (x : Fin d → ℝ) : ℝ :=
  (Set.univ.pi fun i => Set.Ioc (c i - rad i) (c i + rad i)).indicator (fun _ => 1 / ∏ i, (2 * rad i)) x

/-- **C06** The uniform distribution is a density supported on its box, and `log_prob` is its logarithm. -/
theorem C06_uniform_density {d : ℕ} (c : Fin d → ℝ) (rs : List ℝ) (rad : Fin d → ℝ) (hr : RadiusFor rs rad)
    (hpos : ∀ i, 0 < rad i) :
    ∃ U, Uniform.mk' c rs = .ok U ∧
      (∀ x, U.prob1 x = .fin (uniformDensity c rad x)) ∧
      (∀ x, U.logProb1 x = if uniformDensity c rad x = 0 then .ninf
        else .fin (Real.log (uniformDensity c rad x))) ∧
      Integrable (uniformDensity c rad) ∧ ∫ x, uniformDensity c rad x = 1 := by
  obtain ⟨U, hU, hl, hs, hv⟩ := Uniform.mk'_of_radius c rs rad hr
  have hvol : 0 < ∏ i, (2 * rad i) := Finset.prod_pos fun i _ => by have := hpos i; linarith
  have hin : ∀ x, U.inlier x ↔ x ∈ Set.univ.pi fun i => Set.Ioc (c i - rad i) (c i + rad i) := by
    intro x
    simp [Uniform.inlier, hl, hs, Set.mem_pi]
  have hpv : U.probVal = .fin (1 / ∏ i, (2 * rad i)) := by
    unfold Uniform.probVal
    rw [hv, XF.fin_div_ne _ _ hvol.ne']
  have hmeas : MeasurableSet (Set.univ.pi fun i => Set.Ioc (c i - rad i) (c i + rad i)) :=
    MeasurableSet.univ_pi fun _ => measurableSet_Ioc
  refine ⟨U, hU, ?_, ?_, ?_, ?_⟩
  · intro x
    unfold Uniform.prob1 uniformDensity
    by_cases h : x ∈ Set.univ.pi fun i => Set.Ioc (c i - rad i) (c i + rad i)
    · rw [if_pos ((hin x).2 h), Set.indicator_of_mem h, hpv]
    · rw [if_neg (fun h' => h ((hin x).1 h')), Set.indicator_of_notMem h]
  · intro x
    unfold Uniform.logProb1 uniformDensity
    have h1 : 0 < 1 / ∏ i, (2 * rad i) := one_div_pos.mpr hvol
    by_cases h : x ∈ Set.univ.pi fun i => Set.Ioc (c i - rad i) (c i + rad i)
    · rw [if_pos ((hin x).2 h), Set.indicator_of_mem h, hpv, if_neg h1.ne']
      simp only [XF.log, not_lt.mpr h1.le, h1.ne', if_false]
    · rw [if_neg (fun h' => h ((hin x).1 h')), Set.indicator_of_notMem h, if_pos rfl]
  · unfold uniformDensity
    refine (integrable_indicator_iff hmeas).2 ?_
    refine integrableOn_const ?_
    rw [volume_pi_pi]
    exact (ENNReal.prod_lt_top fun i _ => by simp [Real.volume_Ioc]).ne
  · unfold uniformDensity
    rw [Uniform.integral_indicator_box _ fun _ => measurableSet_Ioc]
    have : ∀ i, (volume (Set.Ioc (c i - rad i) (c i + rad i))).toReal = 2 * rad i := by
      intro i
      rw [Real.volume_Ioc, ENNReal.toReal_ofReal (by have := hpos i; linarith)]
      ring
    rw [Finset.prod_congr rfl fun i _ => this i]
    field_simp

/-- A radius of any other length is refused. -/
theorem C06_bad_radius {K : Type*} [Field K] [LinearOrder K] {d : ℕ} (c : Fin d → K) (rs : List K)
    (h1 : rs.length ≠ 1) (h2 : rs.length ≠ d) : Uniform.mk' c rs = .error .value := by
  unfold Uniform.mk'
  split
  · simp at h1
  · simp [h2]

/-- Both radius forms occur. -/
example : RadiusFor [(1:ℝ)] (fun _ : Fin 3 => 1) ∧ RadiusFor [(1:ℝ), 2] ![1, 2] :=
  ⟨Or.inl ⟨1, rfl, fun _ => rfl⟩, Or.inr (by simp)⟩
example : ((Uniform.mk' ![(0:ℚ), 1] [1, 2]).map fun U => (U.prob1 ![1, 2], U.prob1 ![-1, 2], U.prob1 ![1, 5]))
    = .ok (.fin (1/8), .fin 0, .fin 0) := by decide +kernel

/-- **C07** (negation) `integral` is not the probability of the box: for the uniform density on `(-1, 1]` and the
box `[2, 3]`, which it does not meet, the code returns a negative number. -/
theorem C07_refuted :
    ¬ ∀ (d : ℕ) (c : Fin d → ℚ) (r : ℚ), 0 < r → ∀ U, Uniform.mk' c [r] = .ok U → ∀ a b v,
      U.integral a b = .ok (.fin v) → 0 ≤ v := by
  intro h
  have h1 := h 1 ![0] 1 (by norm_num) _ rfl ![2] ![3] (-1/2) (by decide +kernel)
  norm_num at h1

/-- In two dimensions the signs cancel and a box far from the support gets a large positive "probability". -/
theorem C07_refuted_large :
    ∃ U : Uniform ℚ 2, Uniform.mk' ![0, 0] [1] = .ok U ∧
      U.integral ![9, 9] ![10, 10] = .ok (.fin 16) ∧ ∀ x, (∀ i, 9 ≤ x i) → U.prob1 x = .fin 0 := by
  refine ⟨_, rfl, by decide +kernel, ?_⟩
  intro x hx
  unfold Uniform.prob1
  rw [if_neg]
  intro h
  have h1 := (h 0).2
  have h2 := hx 0
  have h3 : x 0 ≤ (0:ℚ) + 1 := h1
  linarith

/-- **C07** (what holds) When the box meets the closed support in every coordinate, `integral(a, b)` is the integral of
the density over the box `[a, b]`. Missing with respect to C07: boxes that do not meet the support. -/
theorem C07_partial {d : ℕ} (c : Fin d → ℝ) (rs : List ℝ) (rad : Fin d → ℝ) (hr : RadiusFor rs rad)
    (hpos : ∀ i, 0 < rad i) (a b : Fin d → ℝ) (hab : ∀ i, a i < b i)
    (hmeet : ∀ i, a i ≤ c i + rad i ∧ c i - rad i ≤ b i) :
    ∃ U v, Uniform.mk' c rs = .ok U ∧ U.integral a b = .ok (.fin v) ∧
      v = ∫ x in Set.univ.pi fun i => Set.Icc (a i) (b i), uniformDensity c rad x := by
  obtain ⟨U, hU, hl, hs, hv⟩ := Uniform.mk'_of_radius c rs rad hr
  have hvol : 0 < ∏ i, (2 * rad i) := Finset.prod_pos fun i _ => by have := hpos i; linarith
  refine ⟨U, (1 / ∏ i, (2 * rad i)) *
    ∏ i, (min (b i) (c i + rad i) - max (a i) (c i - rad i)), hU, ?_, ?_⟩
  · unfold Uniform.integral
    rw [if_pos hab, hl, hs, hv, XF.fin_div_ne _ _ hvol.ne', XF.fin_mul]
  · have h1 : (∫ x in Set.univ.pi fun i => Set.Icc (a i) (b i), uniformDensity c rad x)
        = ∫ x : Fin d → ℝ, (Set.univ.pi fun i => Set.Icc (a i) (b i) ∩
            Set.Ioc (c i - rad i) (c i + rad i)).indicator (fun _ => 1 / ∏ i, (2 * rad i)) x := by
      rw [← integral_indicator (MeasurableSet.univ_pi fun _ => measurableSet_Icc)]
      congr 1
      funext x
      unfold uniformDensity
      rw [Set.indicator_indicator, ← Set.pi_inter_distrib]
    rw [h1, Uniform.integral_indicator_box _ fun _ => measurableSet_Icc.inter measurableSet_Ioc, mul_comm]
    congr 1
    apply Finset.prod_congr rfl
    intro i _
    have hle : max (a i) (c i - rad i) ≤ min (b i) (c i + rad i) := by
      have := hpos i
      have := hab i
      have := hmeet i
      simp only [le_min_iff, max_le_iff]
      exact ⟨⟨by linarith, by linarith⟩, ⟨by linarith, by linarith⟩⟩
    have : (volume (Set.Icc (a i) (b i) ∩ Set.Ioc (c i - rad i) (c i + rad i)))
        = ENNReal.ofReal (min (b i) (c i + rad i) - max (a i) (c i - rad i)) := by
      apply le_antisymm
      · rw [← Real.volume_Icc]
        apply measure_mono
        rintro x ⟨⟨h1, h2⟩, h3, h4⟩
        exact ⟨max_le h1 h3.le, le_min h2 h4⟩
      · rw [← Real.volume_Ioc]
        apply measure_mono
        rintro x ⟨h1, h2⟩
        rw [max_lt_iff] at h1
        rw [le_min_iff] at h2
        exact ⟨⟨h1.1.le, h2.1⟩, h1.2, h2.2⟩
    rw [this, ENNReal.toReal_ofReal (by linarith)]

/-- The hypotheses of `C07_partial` hold, e.g., for a box overlapping a corner of the support. -/
example : (∀ i, ![(0:ℝ), 1/2] i < ![2, 3] i) ∧
    ∀ i, ![(0:ℝ), 1/2] i ≤ (fun _ : Fin 2 => (0:ℝ)) i + 1 ∧ (fun _ : Fin 2 => (0:ℝ)) i - 1 ≤ ![(2:ℝ), 3] i := by
  constructor
  · intro i; fin_cases i <;> norm_num
  · intro i; fin_cases i <;> norm_num

/-- **C08** (negation) A sample can have density 0: the generator may return `u = 0`, which is the excluded lower
face. -/
theorem C08_refuted :
    ¬ ∀ (d : ℕ) (c : Fin d → ℚ) (r : ℚ), 0 < r → ∀ U, Uniform.mk' c [r] = .ok U →
      ∀ u : Fin d → ℚ, (∀ i, 0 ≤ u i ∧ u i < 1) → U.prob1 (U.sample1 u) ≠ .fin 0 := by
  intro h
  exact h 1 ![0] 1 (by norm_num) _ rfl ![0] (by intro i; fin_cases i; simp) (by decide +kernel)

/-- **C08** (what holds) For generator outputs strictly between 0 and 1 in every coordinate the sample is inside the box
and has density `1/volume > 0`. Missing with respect to C08: an output equal to 0. -/
theorem C08_partial {K : Type*} [Field K] [LinearOrder K] [IsStrictOrderedRing K] {d : ℕ} (c : Fin d → K)
    (rs : List K) (rad : Fin d → K) (hr : RadiusFor rs rad) (hpos : ∀ i, 0 < rad i)
    (u : Fin d → K) (hu : ∀ i, 0 < u i ∧ u i < 1) :
    ∃ U, Uniform.mk' c rs = .ok U ∧
      (∀ i, c i - rad i < U.sample1 u i ∧ U.sample1 u i < c i + rad i) ∧
      ∃ v, 0 < v ∧ v * (∏ i, (2 * rad i)) = 1 ∧ U.prob1 (U.sample1 u) = .fin v := by
  obtain ⟨U, hU, hl, hs, hv⟩ := Uniform.mk'_of_radius c rs rad hr
  have hvol : 0 < ∏ i, (2 * rad i) := Finset.prod_pos fun i _ => by have := hpos i; linarith
  have hin : ∀ i, c i - rad i < U.sample1 u i ∧ U.sample1 u i < c i + rad i := by
    intro i
    have h1 := hpos i
    have h2 := hu i
    simp only [Uniform.sample1, hl, hs]
    have h3 : 0 < 2 * rad i * u i := mul_pos (by linarith) h2.1
    have h4 : 2 * rad i * u i < 2 * rad i := by nlinarith
    have e : (c i + rad i - (c i - rad i)) * u i = 2 * rad i * u i := by ring
    rw [e]
    constructor <;> linarith
  refine ⟨U, hU, hin, 1 / ∏ i, (2 * rad i), one_div_pos.mpr hvol, by field_simp, ?_⟩
  unfold Uniform.prob1 Uniform.probVal
  rw [if_pos, hv, XF.fin_div_ne _ _ hvol.ne']
  intro i
  rw [hl, hs]
  exact ⟨(hin i).1, (hin i).2.le⟩

example : ∀ i, (0:ℚ) < (![1/3, 1/2] : Fin 2 → ℚ) i ∧ (![1/3, 1/2] : Fin 2 → ℚ) i < 1 := by
  intro i; fin_cases i <;> norm_num

/-- **C15** Uniform density on arrays: which shapes are accepted, and row by row evaluation. -/
theorem C15_uniform_batch {K : Type*} [Field K] [LinearOrder K] {d : ℕ} (U : Uniform K d) :
    (∀ x : Fin d → K, U.prob (.vec (List.ofFn x)) = .ok [U.prob1 x]) ∧
    (∀ rows : List (Fin d → K), rows ≠ [] → U.prob (.mat d rows) = .ok (rows.map U.prob1)) ∧
    (∀ rows : List (Fin d → K), ∀ i (h : i < rows.length),
      (U.prob (.mat d rows)).map (fun r => r[i]?) = (U.prob (.mat d [rows[i]])).map (fun r => r[0]?)) ∧
    (∀ xs : List K, xs.length ≠ d → U.prob (.vec xs) = .error .value) ∧
    (∀ m (rows : List (Fin m → K)), m ≠ d → rows ≠ [] → U.prob (.mat m rows) = .error .value) ∧
    (∀ m, U.prob (.mat m []) = .error .index) ∧
    U.prob .other = .error .value := by
  have hz : ∀ rows : List (Fin d → K), List.zipWith (fun v r => if U.inlier r then v else XF.fin 0)
      (List.replicate rows.length U.probVal) rows = rows.map U.prob1 := by
    intro rows
    induction rows with
    | nil => rfl
    | cons r rows ih => simp [List.replicate_succ, ih, Uniform.prob1]
  have hmat : ∀ rows : List (Fin d → K), rows ≠ [] → U.prob (.mat d rows) = .ok (rows.map U.prob1) := by
    intro rows hne
    cases rows with
    | nil => exact absurd rfl hne
    | cons r rs =>
      simp only [Uniform.prob, checkShape, dif_pos]
      show Except.ok _ = _
      rw [hz]
  refine ⟨?_, hmat, ?_, ?_, ?_, ?_, rfl⟩
  · intro x
    have h : (List.ofFn x).length = d := by simp
    simp only [Uniform.prob, checkShape, dif_pos h]
    show Except.ok _ = _
    rw [hz]
    simp
  · intro rows i h
    have hne : rows ≠ [] := by rintro rfl; simp at h
    rw [hmat rows hne, hmat [rows[i]] (by simp)]
    simp [Except.map, h]
  · intro xs h
    simp only [Uniform.prob, checkShape, dif_neg h]
    rfl
  · intro m rows h hne
    cases rows with
    | nil => exact absurd rfl hne
    | cons r rs =>
      simp only [Uniform.prob, checkShape, dif_neg h]
      rfl
  · intro m; rfl

example : ((Uniform.mk' ![(0:ℚ), 0] [1]).bind fun U => U.prob (.mat 2 [![0, 0], ![5, 0], ![1, 1]]))
    = .ok [.fin (1/4), .fin 0, .fin (1/4)] := by decide +kernel

end Verif
