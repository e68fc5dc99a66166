import Verif.Spec.Sample
import Verif.Proof.Pick
import Mathlib.MeasureTheory.Measure.WithDensity
import Mathlib.MeasureTheory.Measure.Prod

/-!
Law of the component selected by a mixture and of the points it returns.
-/

set_option linter.unusedSectionVars false
set_option autoImplicit false

namespace Verif

open MeasureTheory ProbabilityTheory

section
variable {Ω : Type*} [MeasurableSpace Ω] {μ : Measure Ω} {B : ℕ → ℝ → Set Ω}

/-- The outcomes of the source as seen by the sampler. -/
noncomputable def outcome (B : ℕ → ℝ → Set Ω) (ω : Ω) (j : ℕ) (p : ℝ) : Bool := by
  classical exact decide (ω ∈ B j p)

/-- Successes of the next draws are independent of the event `A`. -/
def Past (μ : Measure Ω) (B : ℕ → ℝ → Set Ω) (j : ℕ) (A : Set Ω) : Prop :=
  MeasurableSet A ∧ ∀ (p : ℕ → ℝ) (n : ℕ) (T : ℕ → Set Ω), (∀ k, T k = B (j + k) (p k) ∨ T k = (B (j + k) (p k))ᶜ) →
    μ (A ∩ ⋂ k ∈ Finset.range n, T k) = μ A * ∏ k ∈ Finset.range n, μ (T k)

theorem past_zero (hB : BernoulliSource μ B) : Past μ B 0 Set.univ := by
  refine ⟨MeasurableSet.univ, ?_⟩
  intro p n T hT
  haveI : IsProbabilityMeasure μ := (hB.indep p).isProbabilityMeasure
  have hi := (iIndepSet_iff_iIndep _ _).1 (hB.indep p)
  rw [Set.univ_inter, measure_univ, one_mul]
  apply hi.meas_biInter
  intro k _
  have hg : MeasurableSet[MeasurableSpace.generateFrom {B k (p k)}] (B k (p k)) :=
    MeasurableSpace.measurableSet_generateFrom rfl
  rcases hT k with h | h
  · rw [h, Nat.zero_add]; exact hg
  · rw [h, Nat.zero_add]; exact hg.compl

theorem past_one {j : ℕ} {A : Set Ω} (hA : Past μ B j A) (p : ℝ) :
    μ (A ∩ B j p) = μ A * μ (B j p) ∧ μ (A ∩ (B j p)ᶜ) = μ A * μ (B j p)ᶜ := by
  constructor
  · have := hA.2 (fun _ => p) 1 (fun k => B (j + k) p) (fun k => .inl rfl)
    simpa using this
  · have := hA.2 (fun _ => p) 1 (fun k => (B (j + k) p)ᶜ) (fun k => .inr rfl)
    simpa using this

theorem past_succ (hB : BernoulliSource μ B) {j : ℕ} {A : Set Ω} (hA : Past μ B j A) (p : ℝ) :
    Past μ B (j + 1) (A ∩ (B j p)ᶜ) := by
  refine ⟨hA.1.inter (hB.meas j p).compl, ?_⟩
  intro q n T hT
  have := hA.2 (fun k => if k = 0 then p else q (k - 1)) (n + 1) (fun k => if k = 0 then (B j p)ᶜ else T (k - 1)) (by
    intro k
    cases k with
    | zero => right; simp
    | succ k =>
      have := hT k
      rw [show j + 1 + k = j + (k + 1) by omega] at this
      simpa using this)
  rw [Finset.prod_range_succ'] at this
  simp only [Nat.add_eq_zero_iff, one_ne_zero, and_false, if_false, Nat.add_sub_cancel, if_true] at this
  rw [(past_one hA p).2, mul_assoc, mul_comm (μ (B j p)ᶜ), ← this]
  congr 1
  ext ω
  simp only [Set.mem_inter_iff, Set.mem_iInter, Finset.mem_range]
  constructor
  · rintro ⟨⟨h1, h2⟩, h3⟩
    refine ⟨h1, ?_⟩
    intro k hk
    cases k with
    | zero => simpa using h2
    | succ k => simpa using h3 k (by omega)
  · rintro ⟨h1, h2⟩
    refine ⟨⟨h1, by simpa using h2 0 (by omega)⟩, ?_⟩
    intro k hk
    simpa using h2 (k + 1) (by omega)

theorem pick_set (B : ℕ → ℝ → Set Ω) (j : ℕ) (left p q : ℝ) (ps : List ℝ) (i : ℕ) :
    {ω | pickGo (outcome B ω) j left (p :: q :: ps) = i} =
      if i = 0 then B j (p / left) else (B j (p / left))ᶜ ∩ {ω | pickGo (outcome B ω) (j + 1) (left - p) (q :: ps) = i - 1} := by
  ext ω
  have hout : outcome B ω j (p / left) = true ↔ ω ∈ B j (p / left) := by simp [outcome]
  simp only [Set.mem_setOf_eq, pickGo]
  by_cases hb : ω ∈ B j (p / left)
  · rw [if_pos (hout.2 hb)]
    by_cases hi : i = 0
    · simp [hi, hb]
    · simp [hi, hb, Ne.symm hi]
  · rw [if_neg (fun h => hb (hout.1 h))]
    by_cases hi : i = 0
    · simp [hi, hb]
    · simp only [hi, if_false, Set.mem_inter_iff, Set.mem_compl_iff, hb, not_false_eq_true, true_and, Set.mem_setOf_eq]
      omega

theorem pick_measurable (hB : BernoulliSource μ B) : ∀ (ps : List ℝ) (j : ℕ) (left : ℝ) (i : ℕ),
    MeasurableSet {ω | pickGo (outcome B ω) j left ps = i} := by
  intro ps
  induction ps with
  | nil => intro j left i; simp [pickGo]
  | cons p ps ih =>
    intro j left i
    cases ps with
    | nil => simp [pickGo]
    | cons q ps =>
      rw [pick_set]
      split_ifs
      · exact hB.meas _ _
      · exact (hB.meas _ _).compl.inter (ih _ _ _)

/-- Conditionally on the past the component `i` is selected with the probability that is its share of what is left. -/
theorem pick_prob (hB : BernoulliSource μ B) : ∀ (ps : List ℝ) (j : ℕ) (left : ℝ), (∀ p ∈ ps, 0 ≤ p) → ps.sum = left →
    0 < left → ∀ (A : Set Ω), Past μ B j A → ∀ i (hi : i < ps.length),
      μ (A ∩ {ω | pickGo (outcome B ω) j left ps = i}) = μ A * ENNReal.ofReal (ps[i] / left) := by
  haveI : IsProbabilityMeasure μ := (hB.indep fun _ => 0).isProbabilityMeasure
  intro ps
  induction ps with
  | nil => intro j left _ _ _ A _ i hi; simp at hi
  | cons p ps ih =>
    intro j left hn hs hl A hA i hi
    cases ps with
    | nil =>
      have hi0 : i = 0 := by simpa using hi
      subst hi0
      simp only [List.sum_cons, List.sum_nil, add_zero] at hs
      subst hs
      simp [pickGo, div_self hl.ne']
    | cons q ps =>
      have hp : 0 ≤ p := hn p (by simp)
      have hn' : ∀ r ∈ q :: ps, 0 ≤ r := fun r hr => hn r (List.mem_cons_of_mem _ hr)
      have hsum : (q :: ps).sum = left - p := by rw [List.sum_cons] at hs; linarith
      have hnn : 0 ≤ (q :: ps).sum := List.sum_nonneg hn'
      have hpl : p ≤ left := by linarith
      have hr0 : 0 ≤ p / left := div_nonneg hp hl.le
      have hr1 : p / left ≤ 1 := (div_le_one hl).2 hpl
      rw [pick_set]
      cases i with
      | zero =>
        rw [if_pos rfl, (past_one hA _).1, hB.prob _ _ hr0 hr1]
        rfl
      | succ i =>
        rw [if_neg (by omega), ← Set.inter_assoc, Nat.add_sub_cancel]
        have hAc : μ (A ∩ (B j (p / left))ᶜ) = μ A * ENNReal.ofReal (1 - p / left) := by
          rw [(past_one hA _).2, prob_compl_eq_one_sub (hB.meas _ _), hB.prob _ _ hr0 hr1,
            ENNReal.ofReal_sub _ hr0, ENNReal.ofReal_one]
        have hi' : i < (q :: ps).length := by simpa using hi
        have hget : (p :: q :: ps)[i + 1] = (q :: ps)[i] := rfl
        rw [hget]
        have hqi : 0 ≤ (q :: ps)[i] := hn' _ (List.getElem_mem hi')
        rcases hpl.lt_or_eq with hlt | heq
        · rw [ih (j + 1) (left - p) hn' hsum (by linarith) _ (past_succ hB hA _) i hi', hAc, mul_assoc,
            ← ENNReal.ofReal_mul (by linarith)]
          congr 2
          have : left - p ≠ 0 := by linarith
          field_simp
        · have hz : (q :: ps)[i] = 0 := by
            have hle := List.single_le_sum hn' _ (List.getElem_mem hi')
            linarith
          rw [hz, zero_div, ENNReal.ofReal_zero, mul_zero]
          refine measure_mono_null Set.inter_subset_left ?_
          rw [hAc, heq, div_self hl.ne', sub_self, ENNReal.ofReal_zero, mul_zero]
          

/-- Law of a point taken from the component selected. -/
theorem mixture_point_law (hB : BernoulliSource μ B) {Ω' Y : Type*} [MeasurableSpace Ω'] [MeasurableSpace Y] (ν : Measure Ω')
    [IsProbabilityMeasure ν] (ws : List ℝ) (hn : ∀ p ∈ ws, 0 ≤ p) (hs : ws.sum = 1) (draw : ℕ → Ω' → Y)
    (hd : ∀ i, Measurable (draw i)) :
    Measurable (fun o : Ω × Ω' => draw (pickGo (outcome B o.1) 0 1 ws) o.2) ∧
    Measure.map (fun o : Ω × Ω' => draw (pickGo (outcome B o.1) 0 1 ws) o.2) (μ.prod ν) =
      ∑ i : Fin ws.length, ENNReal.ofReal ws[i] • Measure.map (draw i) ν := by
  haveI : IsProbabilityMeasure μ := (hB.indep fun _ => 0).isProbabilityMeasure
  have hne : ws ≠ [] := by rintro rfl; simp at hs
  have hpm : ∀ i, MeasurableSet {ω | pickGo (outcome B ω) 0 1 ws = i} := pick_measurable hB ws 0 1
  have hm : Measurable (fun o : Ω × Ω' => draw (pickGo (outcome B o.1) 0 1 ws) o.2) := by
    have h1 : Measurable fun ω => pickGo (outcome B ω) 0 1 ws := measurable_to_countable' hpm
    have h2 : Measurable fun q : ℕ × Ω' => draw q.1 q.2 := measurable_from_prod_countable_right fun i => hd i
    exact h2.comp ((h1.comp measurable_fst).prodMk measurable_snd)
  refine ⟨hm, ?_⟩
  ext S hS
  rw [Measure.map_apply hm hS, Measure.coe_finset_sum, Finset.sum_apply]
  simp only [Measure.smul_apply, smul_eq_mul]
  have hset : (fun o : Ω × Ω' => draw (pickGo (outcome B o.1) 0 1 ws) o.2) ⁻¹' S =
      ⋃ i : Fin ws.length, {ω | pickGo (outcome B ω) 0 1 ws = i} ×ˢ (draw i ⁻¹' S) := by
    ext o
    simp only [Set.mem_preimage, Set.mem_iUnion, Set.mem_prod, Set.mem_setOf_eq]
    constructor
    · intro h
      refine ⟨⟨pickGo (outcome B o.1) 0 1 ws, (multinomialGo_pick _ ws 0 1 hne).1⟩, rfl, h⟩
    · rintro ⟨i, h1, h2⟩
      rw [h1]; exact h2
  rw [hset, measure_iUnion, tsum_fintype]
  · apply Finset.sum_congr rfl
    intro i _
    rw [Measure.prod_prod, Measure.map_apply (hd i) hS]
    congr 1
    have := pick_prob hB ws 0 1 hn hs one_pos Set.univ (past_zero hB) i i.2
    rw [Set.univ_inter, measure_univ, one_mul, div_one] at this
    exact this
  · intro i j hij
    rw [Function.onFun, Set.disjoint_left]
    rintro o ⟨h1, -⟩ ⟨h2, -⟩
    simp only [Set.mem_setOf_eq] at h1 h2
    exact hij (Fin.ext (h1.symm.trans h2))
  · intro i
    exact (hpm i).prod (hd i hS)

end
end Verif
