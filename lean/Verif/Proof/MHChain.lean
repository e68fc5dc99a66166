import Verif.Props.MHInvariant
import Verif.Spec.MHConsistent
import Verif.Proof.Doeblin
import Mathlib.MeasureTheory.Measure.WithDensity

/-!
# The chain of accepted points of Metropolis-Hastings: kernel, minorisation, invariant law
-/

set_option linter.unusedSectionVars false
set_option autoImplicit false

namespace Verif
namespace MHast

open MeasureTheory Set Adaptive

variable {d : ℕ}

/-- The first accepted point of a sequence of tries from `x` (`x` itself if all are rejected). -/
noncomputable def next (c : Cfg d) (x : Fin d → ℝ) (ξ : ℕ → (Fin d → ℝ) × ℝ) : Fin d → ℝ :=
  open Classical in
  if h : ∃ k, accepts c x (propose c x (ξ k).1) (ξ k).2 = true then propose c x (ξ (Nat.find h)).1 else x

theorem next_eq {c : Cfg d} {x : Fin d → ℝ} {ξ : ℕ → (Fin d → ℝ) × ℝ} {k : ℕ}
    (hk : accepts c x (propose c x (ξ k).1) (ξ k).2 = true)
    (hr : ∀ i < k, accepts c x (propose c x (ξ i).1) (ξ i).2 = false) : next c x ξ = propose c x (ξ k).1 := by
  classical
  have h : ∃ k, accepts c x (propose c x (ξ k).1) (ξ k).2 = true := ⟨k, hk⟩
  have hf : Nat.find h = k := by
    rw [Nat.find_eq_iff]
    exact ⟨hk, fun i hi => by rw [hr i hi]; decide⟩
  unfold next
  rw [dif_pos h]
  have : ∀ (inst : DecidablePred fun k => accepts c x (propose c x (ξ k).1) (ξ k).2 = true),
      @Nat.find _ inst h = k := by
    intro inst
    rw [← hf]
    congr
  rw [this]

/-- One step of the chain, from the nearest point of the search space. -/
noncomputable def chain (c : Cfg d) (x : Fin d → ℝ) (ξ : ℕ → (Fin d → ℝ) × ℝ) : Fin d → ℝ := next c (clip c.lo c.hi x) ξ

/-- Law of the tries of one step. -/
noncomputable def triesLaw (q : (Fin d → ℝ) → ℝ) : Measure (ℕ → (Fin d → ℝ) × ℝ) := Measure.infinitePi fun _ => tryLaw q

section
variable {lo hi : Fin d → ℝ} {p q : (Fin d → ℝ) → ℝ}

theorem clip_measurable : Measurable fun x : Fin d → ℝ => clip lo hi x := by
  unfold clip
  refine measurable_pi_lambda _ fun i => ?_
  fun_prop

theorem next_measurable (hp : IsDensity p) (hq : IsDensity q) :
    Measurable (Function.uncurry (next (densCfg lo hi p q))) := by
  classical
  let A : ℕ → (Fin d → ℝ) × (ℕ → (Fin d → ℝ) × ℝ) → Prop := fun k t =>
    accepts (densCfg lo hi p q) t.1 (propose (densCfg lo hi p q) t.1 (t.2 k).1) (t.2 k).2 = true
  have hA : ∀ k, MeasurableSet {t | A k t} := by
    intro k
    have h1 := acc_measurable (lo := lo) (hi := hi) hp hq MeasurableSet.univ
    have h2 : Measurable fun t : (Fin d → ℝ) × (ℕ → (Fin d → ℝ) × ℝ) => (t.1, t.2 k) :=
      measurable_fst.prodMk ((measurable_pi_apply k).comp measurable_snd)
    have h3 := h2 h1
    have e : {t | A k t} = (fun t : (Fin d → ℝ) × (ℕ → (Fin d → ℝ) × ℝ) => (t.1, t.2 k)) ⁻¹'
        {t : (Fin d → ℝ) × (Fin d → ℝ) × ℝ |
          accepts (densCfg lo hi p q) t.1 (propose (densCfg lo hi p q) t.1 t.2.1) t.2.2 = true ∧
            propose (densCfg lo hi p q) t.1 t.2.1 ∈ univ} := by
      ext t
      simp [A]
    rw [e]
    exact h3
  have hN : MeasurableSet {t | ∃ k, A k t} := by
    have : {t | ∃ k, A k t} = ⋃ k, {t | A k t} := by
      ext t; simp
    rw [this]
    exact MeasurableSet.iUnion hA
  have hpr : ∀ k, Measurable fun t : (Fin d → ℝ) × (ℕ → (Fin d → ℝ) × ℝ) =>
      propose (densCfg lo hi p q) t.1 (t.2 k).1 := fun k =>
    propose_measurable.comp (measurable_fst.prodMk (measurable_fst.comp ((measurable_pi_apply k).comp measurable_snd)))
  have hex : ∀ t, ∃ k, A k t ∨ ¬ ∃ k, A k t := by
    intro t
    by_cases h : ∃ k, A k t
    · obtain ⟨k, hk⟩ := h
      exact ⟨k, Or.inl hk⟩
    · exact ⟨0, Or.inr h⟩
  have hm : Measurable fun t : (Fin d → ℝ) × (ℕ → (Fin d → ℝ) × ℝ) =>
      propose (densCfg lo hi p q) t.1 (t.2 (Nat.find (hex t))).1 :=
    Measurable.find (f := fun k t => propose (densCfg lo hi p q) t.1 (t.2 k).1)
      (p := fun k t => A k t ∨ ¬ ∃ k, A k t) hpr (fun k => (hA k).union hN.compl) hex
  have e : Function.uncurry (next (densCfg lo hi p q)) = fun t => if ∃ k, A k t then
      propose (densCfg lo hi p q) t.1 (t.2 (Nat.find (hex t))).1 else t.1 := by
    funext t
    by_cases h : ∃ k, A k t
    · rw [if_pos h]
      refine next_eq ?_ fun i hi => ?_
      · have := Nat.find_spec (hex t)
        rcases this with h1 | h1
        · exact h1
        · exact absurd h h1
      · have := Nat.find_min (hex t) hi
        rw [not_or] at this
        exact Bool.eq_false_iff.2 this.1
    · rw [if_neg h]
      show next _ t.1 t.2 = _
      unfold next
      rw [dif_neg h]
  rw [e]
  exact Measurable.ite hN hm measurable_fst

theorem chain_measurable (hp : IsDensity p) (hq : IsDensity q) :
    Measurable (Function.uncurry (chain (densCfg lo hi p q))) := by
  have h : Measurable fun t : (Fin d → ℝ) × (ℕ → (Fin d → ℝ) × ℝ) => (clip lo hi t.1, t.2) :=
    (clip_measurable.comp measurable_fst).prodMk measurable_snd
  have e : Function.uncurry (chain (densCfg lo hi p q)) =
      Function.uncurry (next (densCfg lo hi p q)) ∘ fun t => (clip lo hi t.1, t.2) := rfl
  rw [e]
  exact (next_measurable hp hq).comp h

theorem triesLaw_prob (hq : IsDensity q) : IsProbabilityMeasure (triesLaw q) := by
  haveI := lawProb hq
  unfold triesLaw
  infer_instance

/-- The law of the first accepted point. -/
theorem next_ge (hp : IsDensity p) (hq : IsDensity q) (x : Fin d → ℝ) {B : Set (Fin d → ℝ)} (hB : MeasurableSet B) :
    acceptProb (densCfg lo hi p q) q x B / acceptProb (densCfg lo hi p q) q x univ ≤
      triesLaw q {ξ | next (densCfg lo hi p q) x ξ ∈ B} := by
  haveI := lawProb hq
  set c := densCfg lo hi p q with hc
  let R : Set ((Fin d → ℝ) × ℝ) := {t | accepts c x (propose c x t.1) t.2 = true ∧ propose c x t.1 ∈ univ}ᶜ
  let A : Set ((Fin d → ℝ) × ℝ) := {t | accepts c x (propose c x t.1) t.2 = true ∧ propose c x t.1 ∈ B}
  have hR : MeasurableSet R := (acc_section_measurable hp hq x MeasurableSet.univ).compl
  have hA : MeasurableSet A := acc_section_measurable hp hq x hB
  let E : ℕ → Set (ℕ → (Fin d → ℝ) × ℝ) := fun k => Set.pi (Finset.range (k + 1)) fun i : ℕ => if i < k then R else A
  have hmE : ∀ k i : ℕ, MeasurableSet (if i < k then R else A) := by
    intro k i
    split_ifs
    · exact hR
    · exact hA
  have hE : ∀ k, triesLaw q (E k) = (1 - acceptProb c q x univ) ^ k * acceptProb c q x B := by
    intro k
    unfold triesLaw
    rw [Measure.infinitePi_pi _ fun i _ => hmE k i, Finset.prod_range_succ, if_neg (lt_irrefl k)]
    congr 1
    rw [Finset.prod_congr rfl (g := fun _ => tryLaw q R) fun i hi => by rw [if_pos (Finset.mem_range.1 hi)],
      Finset.prod_const, Finset.card_range]
    congr 1
    exact prob_compl_eq_one_sub (acc_section_measurable hp hq x MeasurableSet.univ)
  have hsub : (⋃ k, E k) ⊆ {ξ | next c x ξ ∈ B} := by
    intro ξ hξ
    obtain ⟨k, hk⟩ := mem_iUnion.1 hξ
    have h1 := hk k (by simp)
    simp only [lt_irrefl, if_false] at h1
    rw [mem_setOf_eq, next_eq h1.1]
    · exact h1.2
    · intro i hi
      have h2 := hk i (by simp; omega)
      simp only [hi, if_true] at h2
      refine Bool.eq_false_iff.2 fun h3 => h2 ⟨h3, mem_univ _⟩
  have hdis : Pairwise (Function.onFun Disjoint E) := by
    intro k l hkl
    show Disjoint (E k) (E l)
    wlog hlt : k < l generalizing k l
    · exact (this hkl.symm (by omega)).symm
    rw [Set.disjoint_left]
    intro ξ h1 h2
    have h3 := h1 k (by simp)
    have h4 := h2 k (by simp; omega)
    simp only [lt_irrefl, if_false] at h3
    simp only [hlt, if_true] at h4
    exact h4 ⟨h3.1, mem_univ _⟩
  refine le_trans (le_of_eq ?_) (measure_mono hsub)
  rw [measure_iUnion hdis fun k => MeasurableSet.pi (Finset.countable_toSet _) fun i _ => hmE k i]
  simp_rw [hE]
  rw [ENNReal.tsum_mul_right, ENNReal.tsum_geometric,
    ENNReal.sub_sub_cancel ENNReal.one_ne_top (acceptProb_le_one hq x univ), mul_comm, div_eq_mul_inv]

theorem acceptProb_add (hp : IsDensity p) (hq : IsDensity q) (x : Fin d → ℝ) {B : Set (Fin d → ℝ)} (hB : MeasurableSet B) :
    acceptProb (densCfg lo hi p q) q x B + acceptProb (densCfg lo hi p q) q x Bᶜ =
      acceptProb (densCfg lo hi p q) q x univ := by
  unfold acceptProb
  rw [← measure_union ?_ (acc_section_measurable hp hq x hB.compl)]
  · congr 1
    ext t
    simp only [mem_union, mem_setOf_eq, mem_compl_iff, mem_univ, and_true]
    tauto
  · rw [Set.disjoint_left]
    rintro t ⟨-, h1⟩ ⟨-, h2⟩
    exact h2 h1

theorem next_law (hp : IsDensity p) (hq : IsDensity q) (x : Fin d → ℝ) (ha : acceptProb (densCfg lo hi p q) q x univ ≠ 0)
    {B : Set (Fin d → ℝ)} (hB : MeasurableSet B) :
    triesLaw q {ξ | next (densCfg lo hi p q) x ξ ∈ B} =
      acceptProb (densCfg lo hi p q) q x B / acceptProb (densCfg lo hi p q) q x univ := by
  haveI := triesLaw_prob hq
  refine le_antisymm ?_ (next_ge hp hq x hB)
  have h1 := next_ge (lo := lo) (hi := hi) hp hq x hB.compl
  have hm : MeasurableSet {ξ | next (densCfg lo hi p q) x ξ ∈ B} :=
    ((next_measurable hp hq).comp measurable_prodMk_left) hB
  have e : {ξ | next (densCfg lo hi p q) x ξ ∈ Bᶜ} = {ξ | next (densCfg lo hi p q) x ξ ∈ B}ᶜ := rfl
  rw [e, prob_compl_eq_one_sub hm] at h1
  have ht : acceptProb (densCfg lo hi p q) q x univ ≠ ⊤ := ne_top_of_le_ne_top ENNReal.one_ne_top (acceptProb_le_one hq x univ)
  have h2 : acceptProb (densCfg lo hi p q) q x B / acceptProb (densCfg lo hi p q) q x univ +
      acceptProb (densCfg lo hi p q) q x Bᶜ / acceptProb (densCfg lo hi p q) q x univ = 1 := by
    rw [← ENNReal.add_div, acceptProb_add hp hq x hB, ENNReal.div_self ha ht]
  have hx1 : acceptProb (densCfg lo hi p q) q x Bᶜ / acceptProb (densCfg lo hi p q) q x univ ≠ ⊤ := by
    refine ne_top_of_le_ne_top ENNReal.one_ne_top ?_
    rw [← h2]
    exact le_add_self
  have h3 : acceptProb (densCfg lo hi p q) q x B / acceptProb (densCfg lo hi p q) q x univ =
      1 - acceptProb (densCfg lo hi p q) q x Bᶜ / acceptProb (densCfg lo hi p q) q x univ :=
    ENNReal.eq_sub_of_add_eq hx1 h2
  rw [h3]
  have h4 : triesLaw q {ξ | next (densCfg lo hi p q) x ξ ∈ B} =
      1 - (1 - triesLaw q {ξ | next (densCfg lo hi p q) x ξ ∈ B}) :=
    (ENNReal.sub_sub_cancel ENNReal.one_ne_top prob_le_one).symm
  rw [h4]
  exact tsub_le_tsub_left h1 1

variable {ε M : ℝ}

theorem Covers.boundPos (hp : IsDensity p) (h : Covers lo hi p q ε M) : 0 < M := by
  by_contra hM
  have : ∀ x, p x = 0 := fun x => le_antisymm ((h.bound x).trans (not_lt.1 hM)) (hp.nonneg x)
  have ht := hp.total
  simp [this] at ht

theorem accept_minor (hp : IsDensity p) (hq : IsDensity q) (h : Covers lo hi p q ε M) {x : Fin d → ℝ}
    (hx : ∀ i, lo i ≤ x i ∧ x i ≤ hi i) {B : Set (Fin d → ℝ)} (hB : MeasurableSet B) :
    ENNReal.ofReal (ε / M) * (volume.withDensity fun y => ENNReal.ofReal (p y)) B ≤
      acceptProb (densCfg lo hi p q) q x B := by
  have hM := h.boundPos hp
  have hm := acc_section_measurable (lo := lo) (hi := hi) hp hq x hB
  unfold acceptProb tryLaw
  rw [Measure.prod_apply hm, lintegral_withDensity_eq_lintegral_mul _ hq.meas.ennreal_ofReal
    (measurable_measure_prodMk_left hm), withDensity_apply _ hB, ← lintegral_const_mul' _ _ ENNReal.ofReal_ne_top]
  rw [← lintegral_indicator hB, ← lintegral_add_left_eq_self (μ := volume)
    (B.indicator fun y => ENNReal.ofReal (ε / M) * ENNReal.ofReal (p y)) x]
  refine lintegral_mono fun z => ?_
  simp only [Pi.mul_apply, preimage_setOf_eq, accepts_iff hp.nonneg hq.nonneg]
  by_cases hy : x + z ∈ B
  swap
  · rw [indicator_of_notMem hy]; exact zero_le
  rw [indicator_of_mem hy]
  rcases (hp.nonneg (x + z)).eq_or_lt with h0 | h0
  · rw [← h0]; simp
  have hbox : ∀ i, lo i ≤ (x + z) i ∧ (x + z) i ≤ hi i := fun i => ⟨(h.inside _ h0 i).1.le, (h.inside _ h0 i).2.le⟩
  have hb := h.below x (x + z) hx h0
  rw [add_sub_cancel_left, show x - (x + z) = -z by abel] at hb
  rw [propose_in hbox, add_sub_cancel_left, show x - (x + z) = -z by abel]
  simp only [hy, and_true]
  have hqz : 0 < q z := lt_of_lt_of_le h.pos hb.1
  have hqm : 0 < q (-z) := lt_of_lt_of_le h.pos hb.2
  have hpm : p (x + z) / M ≤ 1 := (div_le_one hM).2 (h.bound _)
  rw [← ENNReal.ofReal_mul (div_nonneg h.pos.le hM.le)]
  rcases (hp.nonneg x).eq_or_lt with hx0 | hx0
  · have e : {u : ℝ | 0 ≤ u ∧ u * (p x * q z) < p (x + z) * q (-z)} = Ici 0 := by
      ext u
      simp only [← hx0, zero_mul, mul_zero, mem_setOf_eq, mem_Ici, and_iff_left_iff_imp]
      intro _
      positivity
    have e2 : Ici (0 : ℝ) ∩ Ico 0 1 = Ico 0 1 := by
      ext u; simp only [mem_inter_iff, mem_Ici, mem_Ico]; tauto
    rw [e, Measure.restrict_apply measurableSet_Ici, e2, Real.volume_Ico, sub_zero, ENNReal.ofReal_one, mul_one]
    refine ENNReal.ofReal_le_ofReal ?_
    calc ε / M * p (x + z) = ε * (p (x + z) / M) := by ring
      _ ≤ ε * 1 := mul_le_mul_of_nonneg_left hpm h.pos.le
      _ ≤ q z := by rw [mul_one]; exact hb.1
  · have hA : 0 < p x * q z := by positivity
    have h1 := test_volume hA (C := p (x + z) * q (-z)) (by positivity)
    rw [ENNReal.ofReal_mul hx0.le, mul_assoc] at h1
    have h2 : ENNReal.ofReal (p x) ≠ 0 := by simpa using hx0
    rw [← ENNReal.mul_le_mul_iff_right h2 ENNReal.ofReal_ne_top, h1, ← ENNReal.ofReal_mul hx0.le]
    refine ENNReal.ofReal_le_ofReal (le_min ?_ ?_)
    · refine mul_le_mul_of_nonneg_left ?_ hx0.le
      calc ε / M * p (x + z) = ε * (p (x + z) / M) := by ring
        _ ≤ ε * 1 := mul_le_mul_of_nonneg_left hpm h.pos.le
        _ ≤ q z := by rw [mul_one]; exact hb.1
    · have hpx : p x / M ≤ 1 := (div_le_one hM).2 (h.bound _)
      calc p x * (ε / M * p (x + z)) = ε * p (x + z) * (p x / M) := by ring
        _ ≤ ε * p (x + z) * 1 := mul_le_mul_of_nonneg_left hpx (mul_nonneg h.pos.le h0.le)
        _ ≤ p (x + z) * q (-z) := by nlinarith [mul_le_mul_of_nonneg_left hb.2 h0.le]

theorem target_prob (hp : IsDensity p) : IsProbabilityMeasure (volume.withDensity fun y => ENNReal.ofReal (p y)) :=
  ⟨by rw [withDensity_apply _ MeasurableSet.univ, Measure.restrict_univ, hp.total]⟩

theorem clip_box (hbox : ∀ i, lo i ≤ hi i) (x : Fin d → ℝ) : ∀ i, lo i ≤ clip lo hi x i ∧ clip lo hi x i ≤ hi i :=
  fun i => ⟨le_min (le_max_right _ _) (hbox i), min_le_right _ _⟩

theorem clip_self {x : Fin d → ℝ} (hx : ∀ i, lo i ≤ x i ∧ x i ≤ hi i) : clip lo hi x = x := by
  funext i
  simp only [clip]
  rw [max_eq_left (hx i).1, min_eq_left (hx i).2]

theorem accept_ne_zero (hp : IsDensity p) (hq : IsDensity q) (h : Covers lo hi p q ε M) {x : Fin d → ℝ}
    (hx : ∀ i, lo i ≤ x i ∧ x i ≤ hi i) : acceptProb (densCfg lo hi p q) q x univ ≠ 0 := by
  haveI := target_prob hp
  have h1 := accept_minor hp hq h hx MeasurableSet.univ
  rw [measure_univ, mul_one] at h1
  have h2 : 0 < ENNReal.ofReal (ε / M) := ENNReal.ofReal_pos.2 (div_pos h.pos (h.boundPos hp))
  exact (h2.trans_le h1).ne'

theorem chain_minor (hp : IsDensity p) (hq : IsDensity q) (h : Covers lo hi p q ε M) (hbox : ∀ i, lo i ≤ hi i)
    (x : Fin d → ℝ) (B : Set (Fin d → ℝ)) (hB : MeasurableSet B) :
    ENNReal.ofReal (ε / M) * (volume.withDensity fun y => ENNReal.ofReal (p y)) B ≤
      triesLaw q {ξ | chain (densCfg lo hi p q) x ξ ∈ B} := by
  have hx := clip_box hbox x
  refine (accept_minor hp hq h hx hB).trans ?_
  refine le_trans ?_ (next_ge hp hq (clip lo hi x) hB)
  refine ENNReal.le_div_iff_mul_le (Or.inl (accept_ne_zero hp hq h hx))
    (Or.inl (ne_top_of_le_ne_top ENNReal.one_ne_top (acceptProb_le_one hq _ _))) |>.2 ?_
  exact mul_le_of_le_one_right zero_le (acceptProb_le_one hq _ _)

theorem acceptProb_measurable (hp : IsDensity p) (hq : IsDensity q) {B : Set (Fin d → ℝ)} (hB : MeasurableSet B) :
    Measurable fun x => acceptProb (densCfg lo hi p q) q x B := by
  haveI := lawProb hq
  exact measurable_measure_prodMk_left (acc_measurable hp hq hB)

/-- The law with density proportional to the target multiplied by the acceptance probability. -/
noncomputable def accLaw (lo hi : Fin d → ℝ) (p q : (Fin d → ℝ) → ℝ) : Measure (Fin d → ℝ) :=
  (∫⁻ x, ENNReal.ofReal (p x) * acceptProb (densCfg lo hi p q) q x univ)⁻¹ •
    volume.withDensity fun x => ENNReal.ofReal (p x) * acceptProb (densCfg lo hi p q) q x univ

theorem acc_total (hp : IsDensity p) (hq : IsDensity q) (h : Covers lo hi p q ε M) :
    (∫⁻ x, ENNReal.ofReal (p x) * acceptProb (densCfg lo hi p q) q x univ) ≠ 0 ∧
      (∫⁻ x, ENNReal.ofReal (p x) * acceptProb (densCfg lo hi p q) q x univ) ≠ ⊤ := by
  constructor
  · intro h0
    have hm : Measurable fun x => ENNReal.ofReal (p x) * acceptProb (densCfg lo hi p q) q x univ :=
      hp.meas.ennreal_ofReal.mul (acceptProb_measurable hp hq MeasurableSet.univ)
    rw [lintegral_eq_zero_iff hm] at h0
    have : (fun x => ENNReal.ofReal (p x)) =ᵐ[volume] 0 := by
      filter_upwards [h0] with x hx
      simp only [Pi.zero_apply, mul_eq_zero] at hx ⊢
      rcases hx with hx | hx
      · exact hx
      · by_contra hc
        have hpx : 0 < p x := by simpa using hc
        exact accept_ne_zero hp hq h (fun i => ⟨(h.inside x hpx i).1.le, (h.inside x hpx i).2.le⟩) hx
    have ht := hp.total
    rw [lintegral_congr_ae this] at ht
    simp at ht
  · refine ne_top_of_le_ne_top ENNReal.one_ne_top ?_
    rw [← hp.total]
    exact lintegral_mono fun x => mul_le_of_le_one_right zero_le (acceptProb_le_one hq _ _)

theorem accLaw_prob (hp : IsDensity p) (hq : IsDensity q) (h : Covers lo hi p q ε M) :
    IsProbabilityMeasure (accLaw lo hi p q) := by
  obtain ⟨h0, ht⟩ := acc_total hp hq h
  refine ⟨?_⟩
  unfold accLaw
  rw [Measure.smul_apply, withDensity_apply _ MeasurableSet.univ, Measure.restrict_univ, smul_eq_mul, ENNReal.inv_mul_cancel h0 ht]

theorem chain_invariant (hp : IsDensity p) (hq : IsDensity q) (h : Covers lo hi p q ε M) :
    Invariant (triesLaw q) (chain (densCfg lo hi p q)) (accLaw lo hi p q) := by
  haveI := triesLaw_prob hq
  intro B hB
  have hmA : Measurable fun x => ENNReal.ofReal (p x) * acceptProb (densCfg lo hi p q) q x univ :=
    hp.meas.ennreal_ofReal.mul (acceptProb_measurable (lo := lo) (hi := hi) hp hq MeasurableSet.univ)
  have hk : Measurable fun x => triesLaw q {ξ | chain (densCfg lo hi p q) x ξ ∈ B} :=
    measurable_measure_prodMk_left (chain_measurable hp hq hB)
  unfold accLaw
  rw [lintegral_smul_measure, Measure.smul_apply, withDensity_apply _ hB]
  congr 1
  rw [lintegral_withDensity_eq_lintegral_mul _ hmA hk, ← C48_partial hp hq h.inside (init 0) hB]
  refine lintegral_congr fun x => ?_
  rw [Pi.mul_apply, stepProb_eq hp hq _ _ hB]
  rcases (hp.nonneg x).eq_or_lt with h0 | h0
  · simp [← h0]
  · have hx : ∀ i, lo i ≤ x i ∧ x i ≤ hi i := fun i => ⟨(h.inside x h0 i).1.le, (h.inside x h0 i).2.le⟩
    rw [← next_law hp hq x (accept_ne_zero hp hq h hx) hB]
    congr 3
    ext ξ
    simp only [chain, densCfg]
    rw [clip_self hx]

end

end MHast
end Verif
