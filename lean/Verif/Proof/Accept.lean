import Mathlib.MeasureTheory.Constructions.Pi
import Mathlib.MeasureTheory.Measure.Prod
import Mathlib.Topology.Instances.ENNReal.Lemmas

/-!
# Keeping the accepted ones of independent draws, in blocks as large as the number still missing
-/

set_option linter.unusedSectionVars false
set_option autoImplicit false

namespace Verif
namespace Accept

open MeasureTheory Set

variable {X Y : Type} [MeasurableSpace X] [MeasurableSpace Y]

/-- The accepted entries of `xs` are `a` many and lie in the first `a` sets of `Bs`. -/
def Eats (acc : X → Bool) (pt : X → Y) (xs : List X) (Bs : List (Set Y)) (a : ℕ) : Prop :=
  (xs.filter acc).length = a ∧ List.Forall₂ (fun y (B : Set Y) => y ∈ B) ((xs.filter acc).map pt) (Bs.take a)

/-- Blocks are read until every set of `Bs` has got its point. -/
def Fills (acc : X → Bool) (pt : X → Y) : List (List X) → List (Set Y) → Prop
  | _, [] => True
  | [], _ :: _ => False
  | b :: bs, B :: Bs => ∃ a, Eats acc pt (b.take (Bs.length + 1)) (B :: Bs) a ∧ Fills acc pt bs ((B :: Bs).drop a)

variable {acc : X → Bool} {pt : X → Y}

theorem eats_nil {Bs : List (Set Y)} {a : ℕ} : Eats acc pt [] Bs a ↔ a = 0 := by
  unfold Eats
  constructor
  · rintro ⟨h, -⟩
    exact h.symm
  · rintro rfl
    simp

theorem eats_zero {x : X} {xs : List X} {Bs : List (Set Y)} :
    Eats acc pt (x :: xs) Bs 0 ↔ acc x = false ∧ Eats acc pt xs Bs 0 := by
  unfold Eats
  cases h : acc x <;> simp [h]

theorem eats_succ {x : X} {xs : List X} {B : Set Y} {Bs : List (Set Y)} {a : ℕ} :
    Eats acc pt (x :: xs) (B :: Bs) (a + 1) ↔
      ((acc x = true ∧ pt x ∈ B) ∧ Eats acc pt xs Bs a) ∨ (acc x = false ∧ Eats acc pt xs (B :: Bs) (a + 1)) := by
  unfold Eats
  cases h : acc x
  · simp [h]
  · simp [h]
    tauto

variable (ν : Measure X) [IsProbabilityMeasure ν]

/-- Probability that one draw is accepted with value in `B`. -/
noncomputable def α (acc : X → Bool) (pt : X → Y) (B : Set Y) : ENNReal := ν {x | acc x = true ∧ pt x ∈ B}

/-- Probability that `a` of the first `m` of `n` draws are accepted, in the sets of `Bs`. -/
noncomputable def E (acc : X → Bool) (pt : X → Y) (n m : ℕ) (Bs : List (Set Y)) (a : ℕ) : ENNReal :=
  Measure.pi (fun _ : Fin n => ν) {ω | Eats acc pt ((List.ofFn ω).take m) Bs a}

variable (hacc : MeasurableSet {x | acc x = true}) (hpt : Measurable pt)

include hacc in
theorem rej_meas : MeasurableSet {x | acc x = false} := by
  have : {x | acc x = false} = {x | acc x = true}ᶜ := by
    ext x
    simp
  rw [this]
  exact hacc.compl

include hacc hpt in
theorem ok_meas {B : Set Y} (hB : MeasurableSet B) : MeasurableSet {x | acc x = true ∧ pt x ∈ B} :=
  hacc.inter (hpt hB)

omit [IsProbabilityMeasure ν] in
theorem eats_set_zero (n m : ℕ) (Bs : List (Set Y)) :
    {ω : Fin (n + 1) → X | Eats acc pt ((List.ofFn ω).take (m + 1)) Bs 0} =
      MeasurableEquiv.piFinSuccAbove (fun _ => X) 0 ⁻¹'
        ({x | acc x = false} ×ˢ {ω | Eats acc pt ((List.ofFn ω).take m) Bs 0}) := by
  ext ω
  simp only [mem_setOf_eq, List.ofFn_succ, List.take_succ_cons, eats_zero, mem_preimage, mem_prod]
  rfl

omit [IsProbabilityMeasure ν] in
theorem eats_set_succ (n m : ℕ) (B : Set Y) (Bs : List (Set Y)) (a : ℕ) :
    {ω : Fin (n + 1) → X | Eats acc pt ((List.ofFn ω).take (m + 1)) (B :: Bs) (a + 1)} =
      MeasurableEquiv.piFinSuccAbove (fun _ => X) 0 ⁻¹'
        (({x | acc x = true ∧ pt x ∈ B} ×ˢ {ω | Eats acc pt ((List.ofFn ω).take m) Bs a}) ∪
         ({x | acc x = false} ×ˢ {ω | Eats acc pt ((List.ofFn ω).take m) (B :: Bs) (a + 1)})) := by
  ext ω
  simp only [mem_setOf_eq, List.ofFn_succ, List.take_succ_cons, eats_succ, mem_preimage, mem_prod, mem_union]
  rfl

include hacc hpt in
theorem eats_meas : ∀ (m n : ℕ) (Bs : List (Set Y)) (a : ℕ), m ≤ n → m ≤ Bs.length → (∀ B ∈ Bs, MeasurableSet B) →
    MeasurableSet {ω : Fin n → X | Eats acc pt ((List.ofFn ω).take m) Bs a}
  | 0, n, Bs, a, _, _, _ => by
    simp only [List.take_zero, eats_nil]
    exact MeasurableSet.const _
  | m + 1, n + 1, B :: Bs, 0, hn, hB, h => by
    rw [eats_set_zero]
    exact MeasurableEquiv.measurable _ ((rej_meas hacc).prod (eats_meas m n (B :: Bs) 0 (by omega) (by simp at hB ⊢; omega) h))
  | m + 1, n + 1, B :: Bs, a + 1, hn, hB, h => by
    rw [eats_set_succ]
    simp only [List.length_cons] at hB
    refine MeasurableEquiv.measurable _ (MeasurableSet.union ?_ ?_)
    · exact (ok_meas hacc hpt (h B List.mem_cons_self)).prod
        (eats_meas m n Bs a (by omega) (by omega) fun C hC => h C (List.mem_cons_of_mem _ hC))
    · exact (rej_meas hacc).prod (eats_meas m n (B :: Bs) (a + 1) (by omega) (by simp; omega) h)

/-- Probability of rejection. -/
noncomputable def ρ (acc : X → Bool) : ENNReal := ν {x | acc x = false}

include hacc in
theorem rho_eq : ρ ν acc + α ν acc pt univ = 1 := by
  unfold ρ α
  have h1 : {x | acc x = false} = {x | acc x = true ∧ pt x ∈ univ}ᶜ := by
    ext x
    simp
  rw [h1, add_comm]
  simp only [mem_univ, and_true]
  exact prob_add_prob_compl hacc

theorem E_zero (n : ℕ) (Bs : List (Set Y)) (a : ℕ) : E ν acc pt n 0 Bs a = if a = 0 then 1 else 0 := by
  unfold E
  simp only [List.take_zero, eats_nil]
  split <;> simp [*]

theorem E_reject (n m : ℕ) (Bs : List (Set Y)) : E ν acc pt (n + 1) (m + 1) Bs 0 = ρ ν acc * E ν acc pt n m Bs 0 := by
  unfold E
  rw [eats_set_zero, (measurePreserving_piFinSuccAbove (fun _ => ν) 0).measure_preimage_equiv, Measure.prod_prod]
  rfl

include hacc hpt in
theorem E_succ (n m : ℕ) (hn : m ≤ n) (B : Set Y) (Bs : List (Set Y)) (a : ℕ) (hB : m ≤ Bs.length)
    (h : ∀ C ∈ B :: Bs, MeasurableSet C) :
    E ν acc pt (n + 1) (m + 1) (B :: Bs) (a + 1) =
      α ν acc pt B * E ν acc pt n m Bs a + ρ ν acc * E ν acc pt n m (B :: Bs) (a + 1) := by
  unfold E
  rw [eats_set_succ, (measurePreserving_piFinSuccAbove (fun _ => ν) 0).measure_preimage_equiv, measure_union,
    Measure.prod_prod, Measure.prod_prod]
  · rfl
  · rw [Set.disjoint_left]
    rintro ⟨t, ω⟩ ⟨h1, -⟩ ⟨h2, -⟩
    have h1 := h1.1
    have h2 : acc t = false := h2
    simp only at h1
    rw [h2] at h1
    cases h1
  · exact (rej_meas hacc).prod (eats_meas hacc hpt m n (B :: Bs) (a + 1) hn (by simp; omega) h)

/-- Probability that `a` of the first `m` of `n` draws are accepted. -/
noncomputable def C (acc : X → Bool) (n m a : ℕ) : ENNReal :=
  Measure.pi (fun _ : Fin n => ν) {ω | (((List.ofFn ω).take m).filter acc).length = a}

theorem C_set (n m a : ℕ) : {ω : Fin n → X | (((List.ofFn ω).take m).filter acc).length = a} =
    {ω | Eats acc pt ((List.ofFn ω).take m) (List.replicate m univ) a} := by
  ext ω
  simp only [mem_setOf_eq, Eats]
  refine ⟨fun h => ⟨h, ?_⟩, fun h => h.1⟩
  rw [List.forall₂_iff_get]
  have hl : (((List.ofFn ω).take m).filter acc).length ≤ m :=
    (List.length_filter_le _ _).trans (by rw [List.length_take]; exact min_le_left _ _)
  refine ⟨by simp; omega, ?_⟩
  intro i h1 h2
  simp

omit [IsProbabilityMeasure ν] in
theorem C_eq_E (n m a : ℕ) : C ν acc n m a = E ν acc pt n m (List.replicate m univ) a := by
  unfold C E
  rw [C_set (pt := pt)]

include hacc hpt in
theorem E_repl (n m k a : ℕ) (hn : m ≤ n) (hk : m ≤ k) :
    E ν acc pt n m (List.replicate k univ) a = C ν acc n m a := by
  rw [C_eq_E (pt := pt)]
  unfold E
  congr 1
  ext ω
  simp only [mem_setOf_eq, Eats]
  refine and_congr_right fun h => ?_
  have hl : (((List.ofFn ω).take m).filter acc).length ≤ m :=
    (List.length_filter_le _ _).trans (by rw [List.length_take]; exact min_le_left _ _)
  rw [List.take_replicate, List.take_replicate, min_eq_left (by omega : a ≤ k), min_eq_left (by omega : a ≤ m)]

include hacc hpt in
/-- Given the number of accepted draws, their values are independent. -/
theorem E_eq (κ : Set Y → ENNReal) (hκ : ∀ B, MeasurableSet B → α ν acc pt B = α ν acc pt univ * κ B) :
    ∀ (m n : ℕ) (Bs : List (Set Y)) (a : ℕ), m ≤ n → m ≤ Bs.length → (∀ B ∈ Bs, MeasurableSet B) →
      E ν acc pt n m Bs a = C ν acc n m a * ((Bs.take a).map κ).prod
  | 0, n, Bs, a, _, _, _ => by
    rw [C_eq_E (pt := pt), E_zero, E_zero]
    split
    · subst a; simp
    · simp
  | m + 1, n + 1, B :: Bs, 0, hn, hB, h => by
    rw [C_eq_E (pt := pt), E_reject, E_reject, E_eq κ hκ m n (B :: Bs) 0 (by omega) (by simp at hB ⊢; omega) h,
      E_repl ν hacc hpt n m (m+1) 0 (by omega) (by omega)]
    simp
  | m + 1, n + 1, B :: Bs, a + 1, hn, hB, h => by
    simp only [List.length_cons] at hB
    have hB' : ∀ C ∈ Bs, MeasurableSet C := fun C hC => h C (List.mem_cons_of_mem _ hC)
    rw [C_eq_E (pt := pt), E_succ ν hacc hpt n m (by omega) B Bs a (by omega) h, List.replicate_succ,
      E_succ ν hacc hpt n m (by omega) univ (List.replicate m univ) a (by simp) (by
        intro C hC
        rcases List.mem_cons.1 hC with rfl | hC
        · exact MeasurableSet.univ
        · rw [(List.mem_replicate.1 hC).2]; exact MeasurableSet.univ),
      ← List.replicate_succ, E_repl ν hacc hpt n m (m+1) (a+1) (by omega) (by omega),
      E_repl ν hacc hpt n m m a (by omega) (by omega),
      E_eq κ hκ m n Bs a (by omega) (by omega) hB', E_eq κ hκ m n (B :: Bs) (a + 1) (by omega) (by simp; omega) h,
      hκ B (h B List.mem_cons_self)]
    simp only [List.take_succ_cons, List.map_cons, List.prod_cons]
    ring

include hacc hpt in
theorem C_sum (n m : ℕ) (hn : m ≤ n) : ∑ a ∈ Finset.range (m + 1), C ν acc n m a = 1 := by
  have hmeas : ∀ a, MeasurableSet {ω : Fin n → X | (((List.ofFn ω).take m).filter acc).length = a} := by
    intro a
    rw [C_set (pt := pt)]
    exact eats_meas hacc hpt m n _ a hn (by simp) (by
      intro C hC
      rw [(List.mem_replicate.1 hC).2]; exact MeasurableSet.univ)
  unfold C
  rw [← measure_biUnion_finset]
  · have : (⋃ b ∈ Finset.range (m + 1), {ω : Fin n → X | (((List.ofFn ω).take m).filter acc).length = b}) = univ := by
      ext ω
      have hl : (((List.ofFn ω).take m).filter acc).length ≤ m :=
        (List.length_filter_le _ _).trans (by rw [List.length_take]; exact min_le_left _ _)
      simp only [mem_iUnion, mem_setOf_eq, mem_univ, iff_true, Finset.mem_range]
      exact ⟨_, by omega, rfl⟩
    rw [this, measure_univ]
  · intro a _ b _ hab
    rw [Function.onFun, Set.disjoint_left]
    intro ω h1 h2
    exact hab (h1.symm.trans h2)
  · exact fun a _ => hmeas a

include hacc hpt in
theorem C_zero_lt (n m : ℕ) (hp : α ν acc pt univ ≠ 0) : C ν acc (n + 1) (m + 1) 0 ≠ 1 := by
  rw [C_eq_E (pt := pt), E_reject]
  have h1 : E ν acc pt n m (List.replicate (m + 1) univ) 0 ≤ 1 := prob_le_one
  have h2 := rho_eq (pt := pt) ν hacc
  intro h
  have h3 : (1 : ENNReal) ≤ ρ ν acc := by
    calc (1 : ENNReal) = ρ ν acc * E ν acc pt n m (List.replicate (m + 1) univ) 0 := h.symm
      _ ≤ ρ ν acc * 1 := by gcongr
      _ = ρ ν acc := mul_one _
  have h4 : ρ ν acc = 1 := le_antisymm prob_le_one h3
  rw [h4] at h2
  exact hp ((ENNReal.add_right_inj ENNReal.one_ne_top).1 (h2.trans (add_zero 1).symm))

/-! ### Blocks -/

/-- Probability that `T` blocks of `n` draws are enough to fill `Bs`. -/
noncomputable def P (acc : X → Bool) (pt : X → Y) (n T : ℕ) (Bs : List (Set Y)) : ENNReal :=
  Measure.pi (fun _ : Fin T => Measure.pi fun _ : Fin n => ν) {ω | Fills acc pt (List.ofFn fun i => List.ofFn (ω i)) Bs}

theorem eats_le {xs : List X} {Bs : List (Set Y)} {a : ℕ} (h : Eats acc pt xs Bs a) : a ≤ xs.length := by
  rw [← h.1]
  exact List.length_filter_le _ _

theorem fills_set (n T : ℕ) (B : Set Y) (Bs : List (Set Y)) :
    {ω : Fin (T + 1) → Fin n → X | Fills acc pt (List.ofFn fun i => List.ofFn (ω i)) (B :: Bs)} =
      MeasurableEquiv.piFinSuccAbove (fun _ => Fin n → X) 0 ⁻¹'
        ⋃ a ∈ Finset.range (Bs.length + 1 + 1), {ω | Eats acc pt ((List.ofFn ω).take (Bs.length + 1)) (B :: Bs) a} ×ˢ
          {ω : Fin T → Fin n → X | Fills acc pt (List.ofFn fun i => List.ofFn (ω i)) ((B :: Bs).drop a)} := by
  ext ω
  simp only [mem_setOf_eq, List.ofFn_succ, Fills, mem_preimage, mem_iUnion, mem_prod, Finset.mem_range]
  constructor
  · rintro ⟨a, h1, h2⟩
    refine ⟨a, ?_, h1, h2⟩
    have := eats_le h1
    rw [List.length_take] at this
    omega
  · rintro ⟨a, -, h1, h2⟩
    exact ⟨a, h1, h2⟩

theorem fills_nil (bs : List (List X)) : Fills acc pt bs [] := by
  cases bs <;> trivial

include hacc hpt in
theorem fills_meas (n : ℕ) : ∀ (T : ℕ) (Bs : List (Set Y)), Bs.length ≤ n → (∀ B ∈ Bs, MeasurableSet B) →
    MeasurableSet {ω : Fin T → Fin n → X | Fills acc pt (List.ofFn fun i => List.ofFn (ω i)) Bs}
  | T, [], _, _ => by
    simp only [fills_nil]
    exact MeasurableSet.univ
  | 0, B :: Bs, _, _ => by
    simp only [List.ofFn_zero, Fills]
    exact MeasurableSet.empty
  | T + 1, B :: Bs, hn, h => by
    rw [fills_set]
    simp only [List.length_cons] at hn
    refine MeasurableEquiv.measurable _ (Finset.measurableSet_biUnion _ fun a _ => ?_)
    exact (eats_meas hacc hpt _ n _ a hn (by simp) h).prod
      (fills_meas n T _ (by rw [List.length_drop, List.length_cons]; omega) fun C hC => h C (List.mem_of_mem_drop hC))

theorem P_nil (n T : ℕ) : P ν acc pt n T [] = 1 := by
  unfold P
  simp only [fills_nil]
  exact measure_univ

theorem P_zero (n : ℕ) (B : Set Y) (Bs : List (Set Y)) : P ν acc pt n 0 (B :: Bs) = 0 := by
  unfold P
  simp [Fills]

include hacc hpt in
theorem P_succ (n T : ℕ) (B : Set Y) (Bs : List (Set Y)) (hn : Bs.length + 1 ≤ n) (h : ∀ C ∈ B :: Bs, MeasurableSet C) :
    P ν acc pt n (T + 1) (B :: Bs) =
      ∑ a ∈ Finset.range (Bs.length + 1 + 1), E ν acc pt n (Bs.length + 1) (B :: Bs) a * P ν acc pt n T ((B :: Bs).drop a) := by
  unfold P
  rw [fills_set, (measurePreserving_piFinSuccAbove (fun _ => Measure.pi fun _ : Fin n => ν) 0).measure_preimage_equiv,
    measure_biUnion_finset]
  · refine Finset.sum_congr rfl fun a _ => ?_
    rw [Measure.prod_prod]
    rfl
  · intro a _ b _ hab
    rw [Function.onFun, Set.disjoint_left]
    rintro ⟨ω, ω'⟩ ⟨h1, -⟩ ⟨h2, -⟩
    exact hab (h1.1.symm.trans h2.1)
  · intro a _
    exact (eats_meas hacc hpt _ n _ a hn (by simp) h).prod
      (fills_meas hacc hpt n T _ (by rw [List.length_drop, List.length_cons]; omega) fun C hC => h C (List.mem_of_mem_drop hC))

include hacc hpt in
theorem P_mono (n : ℕ) : ∀ (T : ℕ) (Bs : List (Set Y)), Bs.length ≤ n → (∀ B ∈ Bs, MeasurableSet B) →
    P ν acc pt n T Bs ≤ P ν acc pt n (T + 1) Bs
  | T, [], _, _ => by rw [P_nil, P_nil]
  | 0, B :: Bs, _, _ => by rw [P_zero]; exact zero_le
  | T + 1, B :: Bs, hn, h => by
    rw [P_succ ν hacc hpt n T B Bs (by simpa using hn) h, P_succ ν hacc hpt n (T + 1) B Bs (by simpa using hn) h]
    refine Finset.sum_le_sum fun a _ => ?_
    gcongr
    exact P_mono n T _ (by rw [List.length_drop]; omega) fun C hC => h C (List.mem_of_mem_drop hC)

include hacc hpt in
theorem P_iSup (n : ℕ) (B : Set Y) (Bs : List (Set Y)) (hn : Bs.length + 1 ≤ n) (h : ∀ C ∈ B :: Bs, MeasurableSet C) :
    ⨆ T, P ν acc pt n T (B :: Bs) =
      ∑ a ∈ Finset.range (Bs.length + 1 + 1), E ν acc pt n (Bs.length + 1) (B :: Bs) a *
        ⨆ T, P ν acc pt n T ((B :: Bs).drop a) := by
  have hm : ∀ a, Monotone fun T => P ν acc pt n T ((B :: Bs).drop a) := fun a =>
    monotone_nat_of_le_succ fun T => P_mono ν hacc hpt n T _ (by rw [List.length_drop, List.length_cons]; omega)
      fun C hC => h C (List.mem_of_mem_drop hC)
  simp only [ENNReal.mul_iSup]
  rw [ENNReal.finsetSum_iSup_of_monotone (fun a => (hm a).const_mul' _)]
  simp only [← P_succ ν hacc hpt n _ B Bs hn h]
  exact ((monotone_nat_of_le_succ fun T => P_mono ν hacc hpt n T (B :: Bs) (by simpa using hn) h).iSup_nat_add 1).symm

include hacc hpt in
/-- The kept values are independent with the law of an accepted draw. -/
theorem P_eq (κ : Set Y → ENNReal) (hκ : ∀ B, MeasurableSet B → α ν acc pt B = α ν acc pt univ * κ B)
    (hp : α ν acc pt univ ≠ 0) (n : ℕ) : ∀ (Bs : List (Set Y)), Bs.length ≤ n → (∀ B ∈ Bs, MeasurableSet B) →
    ⨆ T, P ν acc pt n T Bs = (Bs.map κ).prod := by
  intro Bs
  induction hl : Bs.length using Nat.strong_induction_on generalizing Bs with
  | _ k ih =>
  intro hn h
  cases Bs with
  | nil =>
    simp only [P_nil]
    simp
  | cons B Bs =>
    subst hl
    simp only [List.length_cons] at hn ih
    obtain ⟨n', rfl⟩ : ∃ n', n = n' + 1 := ⟨n - 1, by omega⟩
    have hC := C_zero_lt (pt := pt) ν hacc hpt n' Bs.length hp
    have hs := C_sum (pt := pt) ν hacc hpt (n' + 1) (Bs.length + 1) hn
    have hi := P_iSup ν hacc hpt (n' + 1) B Bs hn h
    rw [Finset.sum_range_succ'] at hs hi
    have htail : ∑ a ∈ Finset.range (Bs.length + 1), E ν acc pt (n' + 1) (Bs.length + 1) (B :: Bs) (a + 1) *
        ⨆ T, P ν acc pt (n' + 1) T ((B :: Bs).drop (a + 1)) =
        (∑ a ∈ Finset.range (Bs.length + 1), C ν acc (n' + 1) (Bs.length + 1) (a + 1)) * ((B :: Bs).map κ).prod := by
      rw [Finset.sum_mul]
      refine Finset.sum_congr rfl fun a _ => ?_
      rw [E_eq ν hacc hpt κ hκ _ _ _ _ hn (by simp) h,
        ih ((B :: Bs).drop (a + 1)).length (by rw [List.length_drop, List.length_cons]; omega) _ rfl
          (by rw [List.length_drop, List.length_cons]; omega) (fun C hC => h C (List.mem_of_mem_drop hC)), mul_assoc,
        ← List.prod_append, ← List.map_append, List.take_append_drop]
    rw [htail, E_eq ν hacc hpt κ hκ _ _ _ _ hn (by simp) h] at hi
    simp only [List.take_zero, List.map_nil, List.prod_nil, mul_one, List.drop_zero] at hi
    generalize (∑ a ∈ Finset.range (Bs.length + 1), C ν acc (n' + 1) (Bs.length + 1) (a + 1)) = s at hs hi
    generalize C ν acc (n' + 1) (Bs.length + 1) 0 = c at hs hi hC
    have hP : ⨆ T, P ν acc pt (n' + 1) T (B :: Bs) ≤ 1 := iSup_le fun T => prob_le_one
    generalize ⨆ T, P ν acc pt (n' + 1) T (B :: Bs) = Q at hP hi ⊢
    have hs0 : s ≠ 0 := by
      rintro rfl
      rw [zero_add] at hs
      exact hC hs
    have hst : s ≠ ⊤ := fun h0 => by rw [h0, top_add] at hs; exact ENNReal.one_ne_top hs.symm
    have hct : c ≠ ⊤ := fun h0 => by rw [h0, add_top] at hs; exact ENNReal.one_ne_top hs.symm
    have hQt : Q ≠ ⊤ := ne_top_of_le_ne_top ENNReal.one_ne_top hP
    have h1 : s * Q + c * Q = s * ((B :: Bs).map κ).prod + c * Q := by
      rw [← add_mul, hs, one_mul]
      exact hi
    exact (ENNReal.mul_right_inj hs0 hst).1 ((ENNReal.add_left_inj (ENNReal.mul_ne_top hct hQt)).1 h1)

end Accept
end Verif
