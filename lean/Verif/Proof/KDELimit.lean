import Verif.Spec.KDELimit
import Verif.Props.KDE
import Verif.Proof.GMMSupport
import Mathlib.Probability.Moments.Variance

/-!
A sum of `k` normal densities of fixed width cannot resemble a density that is spread over a much larger region.
-/

set_option linter.unusedSectionVars false
set_option autoImplicit false

namespace Verif
namespace KDE

open MeasureTheory ProbabilityTheory

variable {d : ℕ}

/-- Chebyshev's inequality for a normal number. -/
theorem interval_ge (m : ℝ) (v : NNReal) {r : ℝ} (hr : 0 < r) :
    1 - v / r ^ 2 ≤ (gaussianReal m v).real (Set.Icc (m - r) (m + r)) := by
  have h := meas_ge_le_variance_div_sq (μ := gaussianReal m v) (X := id) (memLp_id_gaussianReal 2) hr
  rw [show ∫ x, id x ∂gaussianReal m v = m from integral_id_gaussianReal, variance_id_gaussianReal] at h
  have h3 : (gaussianReal m v).real (Set.Icc (m - r) (m + r))ᶜ ≤ v / r ^ 2 := by
    refine le_trans (measureReal_mono (show _ ⊆ {x | r ≤ |id x - m|} from ?_) (measure_ne_top _ _)) ?_
    · intro x hx
      simp only [Set.mem_compl_iff, Set.mem_Icc, not_and_or, not_le] at hx
      simp only [Set.mem_setOf_eq, id]
      rcases hx with h | h
      · rw [abs_of_neg (by linarith)]
        linarith
      · rw [abs_of_pos (by linarith)]
        linarith
    · rw [Measure.real]
      exact ENNReal.toReal_le_of_le_ofReal (by positivity) h
  rw [probReal_compl_eq_one_sub measurableSet_Icc] at h3
  linarith

/-- The cube of half side `2 sqrt (d bw)` around the centre holds three quarters of the mass of a component. -/
theorem cube_ge {bw : ℝ} (hb : 0 < bw) (m : Fin d → ℝ) :
    3 / 4 ≤ ∫ x in Set.Icc (fun k => m k - 2 * Real.sqrt (d * bw)) (fun k => m k + 2 * Real.sqrt (d * bw)),
      gaussDiag m (fun _ => bw) x := by
  have h := gaussDiag_boxMass m (fun _ => bw) (fun _ => hb) (fun k => m k - 2 * Real.sqrt (d * bw))
    (fun k => m k + 2 * Real.sqrt (d * bw))
  unfold boxMass at h
  rw [h]
  rcases Nat.eq_zero_or_pos d with hd | hd
  · subst hd
    norm_num
  have hd' : (0 : ℝ) < d := by exact_mod_cast hd
  have hpos : 0 < (d : ℝ) * bw := by positivity
  have h1 := one_sub_sum_le_prod Finset.univ
    (fun k => (gaussianReal (m k) (NNReal.mk bw hb.le)).real
      (Set.Icc (m k - 2 * Real.sqrt (d * bw)) (m k + 2 * Real.sqrt (d * bw))))
    (fun _ => bw / (2 * Real.sqrt (d * bw)) ^ 2) (fun k _ => measureReal_nonneg) (fun k _ => measureReal_le_one)
    (fun k _ => interval_ge (m k) (NNReal.mk bw hb.le) (by positivity))
  refine le_trans (le_of_eq ?_) h1
  rw [Finset.sum_const, Finset.card_univ, Fintype.card_fin, nsmul_eq_mul, mul_pow, Real.sq_sqrt hpos.le]
  field_simp
  norm_num

theorem estimate_integrable {bw : ℝ} (hb : 0 < bw) (nodes : List (Fin d → ℝ)) : Integrable (estimate bw nodes) := by
  have : ∀ l : List (Fin d → ℝ), Integrable fun x => (l.map fun c => gaussDiag c (fun _ => bw) x).sum := by
    intro l
    induction l with
    | nil => simp
    | cons a l ih =>
      simp only [List.map_cons, List.sum_cons]
      exact (gaussDiag_integrable a _ fun _ => hb).add ih
  exact (this nodes).div_const _

/-- The mass of the estimate in a set that contains the cubes of all nodes. -/
theorem estimate_mass {bw : ℝ} (hb : 0 < bw) {nodes : List (Fin d → ℝ)} (hne : nodes ≠ []) {A : Set (Fin d → ℝ)}
    (hA : MeasurableSet A)
    (hc : ∀ c ∈ nodes, Set.Icc (fun k => c k - 2 * Real.sqrt (d * bw)) (fun k => c k + 2 * Real.sqrt (d * bw)) ⊆ A) :
    3 / 4 ≤ ∫ x in A, estimate bw nodes x := by
  have key : ∀ l : List (Fin d → ℝ), (∀ c ∈ l, c ∈ nodes) →
      Integrable (fun x => (l.map fun c => gaussDiag c (fun _ => bw) x).sum) ∧
      3 / 4 * (l.length : ℝ) ≤ ∫ x in A, (l.map fun c => gaussDiag c (fun _ => bw) x).sum := by
    intro l
    induction l with
    | nil => simp
    | cons a l ih =>
      intro hl
      obtain ⟨i1, i2⟩ := ih fun c h => hl c (List.mem_cons_of_mem _ h)
      have i3 := gaussDiag_integrable a (fun _ => bw) fun _ => hb
      simp only [List.map_cons, List.sum_cons]
      refine ⟨i3.add i1, ?_⟩
      rw [integral_add i3.restrict i1.restrict]
      have h1 := cube_ge hb a
      have h2 : ∫ x in Set.Icc (fun k => a k - 2 * Real.sqrt (d * bw)) (fun k => a k + 2 * Real.sqrt (d * bw)),
          gaussDiag a (fun _ => bw) x ≤ ∫ x in A, gaussDiag a (fun _ => bw) x :=
        setIntegral_mono_set i3.integrableOn (Filter.Eventually.of_forall fun x => gaussDiag_nonneg _ _ _)
          (hc a (hl a (by simp))).eventuallyLE
      push_cast [List.length_cons]
      linarith
  obtain ⟨-, h⟩ := key nodes fun c h => h
  unfold estimate
  rw [integral_div]
  have : (0 : ℝ) < nodes.length := by exact_mod_cast List.length_pos_of_ne_nil hne
  rw [le_div_iff₀ this]
  exact h

/-- Two densities, one of which has mass at least 3/4 in a set where the other has at most 1/4, are at distance 1. -/
theorem distance_ge {f g : (Fin d → ℝ) → ℝ} (hf : Integrable f) (hg : Integrable g) (h1 : ∫ x, f x = ∫ x, g x)
    {A : Set (Fin d → ℝ)} (hA : MeasurableSet A) (h2 : 3 / 4 ≤ ∫ x in A, f x) (h3 : ∫ x in A, g x ≤ 1 / 4) :
    1 ≤ distance f g := by
  have hi := (hf.sub hg).abs
  unfold distance
  have e := integral_add_compl hA hi
  have e1 := integral_add_compl hA hf
  have e2 := integral_add_compl hA hg
  have a1 : ∫ x in A, (f x - g x) ≤ ∫ x in A, |f x - g x| :=
    setIntegral_mono (hf.sub hg).integrableOn hi.integrableOn fun x => le_abs_self _
  have a2 : ∫ x in Aᶜ, (g x - f x) ≤ ∫ x in Aᶜ, |f x - g x| :=
    setIntegral_mono (hg.sub hf).integrableOn hi.integrableOn fun x => by rw [abs_sub_comm]; exact le_abs_self _
  rw [integral_sub hf.integrableOn hg.integrableOn] at a1
  rw [integral_sub hg.integrableOn hf.integrableOn] at a2
  simp only [Pi.sub_apply] at e
  linarith

/-- The cubes around the nodes. -/
def cubes (r : ℝ) (nodes : List (Fin d → ℝ)) : Set (Fin d → ℝ) :=
  {x | ∃ c ∈ nodes, x ∈ Set.Icc (fun k => c k - r) (fun k => c k + r)}

theorem cubes_cons (r : ℝ) (a : Fin d → ℝ) (l : List (Fin d → ℝ)) :
    cubes r (a :: l) = Set.Icc (fun k => a k - r) (fun k => a k + r) ∪ cubes r l := by
  ext x
  simp [cubes]

theorem cubes_measurable (r : ℝ) (l : List (Fin d → ℝ)) : MeasurableSet (cubes r l) := by
  induction l with
  | nil => simp [cubes]
  | cons a l ih =>
    rw [cubes_cons]
    exact measurableSet_Icc.union ih

theorem cubes_volume {r : ℝ} (hr : 0 ≤ r) (l : List (Fin d → ℝ)) :
    volume (cubes r l) ≤ ENNReal.ofReal (l.length * (2 * r) ^ d) := by
  induction l with
  | nil => simp [cubes]
  | cons a l ih =>
    rw [cubes_cons]
    refine (measure_union_le _ _).trans ?_
    have h1 : volume (Set.Icc (fun k => a k - r) (fun k => a k + r)) = ENNReal.ofReal ((2 * r) ^ d) := by
      rw [Real.volume_Icc_pi]
      have : ∀ k : Fin d, a k + r - (a k - r) = 2 * r := fun k => by ring
      simp only [this]
      rw [Finset.prod_const, Finset.card_univ, Fintype.card_fin, ENNReal.ofReal_pow (by linarith)]
    rw [h1]
    refine (add_le_add le_rfl ih).trans ?_
    rw [← ENNReal.ofReal_add (by positivity) (by positivity)]
    refine le_of_eq (congrArg _ ?_)
    push_cast [List.length_cons]
    ring

/-- A kernel density estimate over `k` nodes stays at distance 1 from every density that nowhere exceeds
`1 / (4 k (4 sqrt (d bw))^d)`. -/
theorem estimate_far {bw : ℝ} (hb : 0 < bw) {nodes : List (Fin d → ℝ)} (hne : nodes ≠ []) (h1 : ∫ x, estimate bw nodes x = 1)
    {t : (Fin d → ℝ) → ℝ} (ht : Density t) (hM : ∀ x, t x * (4 * nodes.length * (4 * Real.sqrt (d * bw)) ^ d) ≤ 1) :
    1 ≤ distance (estimate bw nodes) t := by
  set r := 2 * Real.sqrt (d * bw) with hr
  have hr0 : 0 ≤ r := by positivity
  have hm := cubes_measurable r nodes
  refine distance_ge (estimate_integrable hb nodes) ht.int (by rw [h1, ht.one]) hm
    (estimate_mass hb hne hm fun c hc x hx => ⟨c, hc, hx⟩) ?_
  have hV := cubes_volume hr0 nodes
  have hfin : volume (cubes r nodes) ≠ ⊤ := ne_top_of_le_ne_top ENNReal.ofReal_ne_top hV
  have hV' : (volume (cubes r nodes)).toReal ≤ nodes.length * (2 * r) ^ d :=
    ENNReal.toReal_le_of_le_ofReal (by positivity) hV
  have e4 : 4 * Real.sqrt (d * bw) = 2 * r := by rw [hr]; ring
  rw [e4] at hM
  have hn : (0 : ℝ) < nodes.length := by exact_mod_cast List.length_pos_of_ne_nil hne
  rcases (show (0 : ℝ) ≤ (2 * r) ^ d by positivity).eq_or_lt with h0 | h0
  · rw [← h0, mul_zero] at hV'
    have : volume (cubes r nodes) = 0 := by
      have : (volume (cubes r nodes)).toReal = 0 := le_antisymm hV' ENNReal.toReal_nonneg
      exact (ENNReal.toReal_eq_zero_iff _).1 this |>.resolve_right hfin
    rw [Measure.restrict_zero_set this]
    simp
  · have hK : 0 < 4 * (nodes.length : ℝ) * (2 * r) ^ d := by positivity
    calc ∫ x in cubes r nodes, t x ≤ ∫ _ in cubes r nodes, 1 / (4 * (nodes.length : ℝ) * (2 * r) ^ d) := by
          refine setIntegral_mono ht.int.integrableOn ?_ fun x => ?_
          · exact integrableOn_const hfin
          · rw [le_div_iff₀ hK]
            exact hM x
      _ = (volume (cubes r nodes)).toReal * (1 / (4 * (nodes.length : ℝ) * (2 * r) ^ d)) := by
          rw [setIntegral_const, smul_eq_mul, Measure.real]
      _ ≤ nodes.length * (2 * r) ^ d * (1 / (4 * (nodes.length : ℝ) * (2 * r) ^ d)) :=
          mul_le_mul_of_nonneg_right hV' (by positivity)
      _ = 1 / 4 := by field_simp

/-! ### Averages over the indices -/

theorem sum_eval {k n : ℕ} (j : Fin k) (g : Fin n → ℝ) :
    ∑ f : Fin k → Fin n, g (f j) = (n : ℝ) ^ (k - 1) * ∑ i, g i := by
  classical
  cases k with
  | zero => exact j.elim0
  | succ k =>
    have e := Fintype.sum_equiv (Fin.insertNthEquiv (fun _ => Fin n) j).symm (fun f : Fin (k + 1) → Fin n => g (f j))
      (fun p : Fin n × (Fin k → Fin n) => g p.1) (fun f => rfl)
    rw [e, Fintype.sum_prod_type]
    simp only [Finset.sum_const, Finset.card_univ, Fintype.card_fun, Fintype.card_fin, nsmul_eq_mul]
    rw [← Finset.mul_sum]
    push_cast
    rfl

/-- Averaged over the indices, the mean of `g` over the chosen samples is the mean of `g` over all samples. -/
theorem overIndices_mean {k n : ℕ} (hk : 0 < k) (hn : 0 < n) (g : ℕ → ℝ) :
    overIndices k n (fun idx => ((List.range k).map fun j => g (idx j % n)).sum / k) =
      ((List.range n).map g).sum / n := by
  unfold overIndices
  have hk' : (k : ℝ) ≠ 0 := by exact_mod_cast hk.ne'
  have hn' : (n : ℝ) ≠ 0 := by exact_mod_cast hn.ne'
  have e : ∀ f : Fin k → Fin n, ((List.range k).map fun j => g ((if h : j < k then (f ⟨j, h⟩ : ℕ) else 0) % n)).sum =
      ∑ j, g (f j) := by
    intro f
    rw [show ((List.range k).map fun j => g ((if h : j < k then (f ⟨j, h⟩ : ℕ) else 0) % n)).sum =
      ∑ j ∈ Finset.range k, g ((if h : j < k then (f ⟨j, h⟩ : ℕ) else 0) % n) from rfl, Finset.sum_range]
    refine Finset.sum_congr rfl fun j _ => ?_
    rw [dif_pos j.2, Nat.mod_eq_of_lt (f _).2]
  simp only [e]
  rw [← Finset.sum_div, Finset.sum_comm]
  have e2 : ∀ j : Fin k, ∑ f : Fin k → Fin n, g (f j) = (n : ℝ) ^ (k - 1) * ∑ i : Fin n, g i :=
    fun j => sum_eval j fun i => g i
  simp only [e2]
  rw [Finset.sum_const, Finset.card_univ, Fintype.card_fin, nsmul_eq_mul, ← Finset.sum_range]
  rw [show ((List.range n).map g).sum = ∑ i ∈ Finset.range n, g i from rfl]
  have : (n : ℝ) ^ k = n ^ (k - 1) * n := by rw [← pow_succ, Nat.sub_add_cancel hk]
  rw [this]
  field_simp

end KDE
end Verif
