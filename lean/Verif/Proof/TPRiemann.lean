import Verif.Proof.TPRun
import Verif.Spec.TPConsistent
import Mathlib.MeasureTheory.Integral.Bochner.Set
import Mathlib.MeasureTheory.Constructions.Pi
import Mathlib.MeasureTheory.Measure.Lebesgue.Basic
import Mathlib.MeasureTheory.Integral.IntegrableOn
import Mathlib.Topology.UniformSpace.HeineCantor

/-!
Riemann sums over the leaf boxes of the tree pyramid.
-/

set_option linter.unusedSectionVars false
set_option autoImplicit false

namespace Verif

open MeasureTheory

variable {d : ℕ}

namespace TPTree

theorem mem_closedCube {c : Pt ℝ d} {R : ℝ} {x : Pt ℝ d} :
    x ∈ closedCube c R ↔ ∀ i, c i - R ≤ x i ∧ x i ≤ c i + R := by
  unfold closedCube
  rw [Set.mem_Icc, Pi.le_def, Pi.le_def]
  exact ⟨fun h i => ⟨h.1 i, h.2 i⟩, fun h => ⟨fun i => (h i).1, fun i => (h i).2⟩⟩

/-- The half open box. -/
def hbox (b : Pt ℝ d × ℝ) : Set (Pt ℝ d) := Set.univ.pi fun i => Set.Ico (b.1 i - b.2) (b.1 i + b.2)

theorem mem_hbox {b : Pt ℝ d × ℝ} {x : Pt ℝ d} : x ∈ hbox b ↔ InHalfOpen b.1 b.2 x := by
  simp [hbox, InHalfOpen, Set.mem_pi]

theorem measurableSet_hbox (b : Pt ℝ d × ℝ) : MeasurableSet (hbox b) := MeasurableSet.univ_pi fun _ => measurableSet_Ico

theorem volume_hbox {b : Pt ℝ d × ℝ} (hb : 0 ≤ b.2) : volume (hbox b) = ENNReal.ofReal ((2 * b.2) ^ d) := by
  unfold hbox
  rw [volume_pi_pi]
  have : ∀ i : Fin d, volume (Set.Ico (b.1 i - b.2) (b.1 i + b.2)) = ENNReal.ofReal (2 * b.2) := by
    intro i
    rw [Real.volume_Ico]
    congr 1
    ring
  simp only [this, Finset.prod_const, Finset.card_univ, Fintype.card_fin]
  rw [ENNReal.ofReal_pow (by linarith)]

theorem setIntegral_closedCube (c : Pt ℝ d) (R : ℝ) (g : Pt ℝ d → ℝ) :
    ∫ x in closedCube c R, g x = ∫ x in hbox (c, R), g x :=
  (setIntegral_congr_set (Measure.univ_pi_Ico_ae_eq_Icc (μ := fun _ : Fin d => (volume : Measure ℝ)))).symm

/-- The integral over the root cube is the sum of the integrals over the boxes. -/
theorem Tiles.integral {c : Pt ℝ d} {R : ℝ} {bs : List (Pt ℝ d × ℝ)} (h : Tiles c R bs) (g : Pt ℝ d → ℝ)
    (hg : ∀ b ∈ bs, IntegrableOn g (hbox b)) :
    ∫ x in hbox (c, R), g x = (bs.map fun b => ∫ x in hbox b, g x).sum := by
  have e : ∀ (l : List (Pt ℝ d × ℝ)), (∀ b ∈ l, IntegrableOn g (hbox b)) →
      Integrable (fun x => (l.map fun b => (hbox b).indicator g x).sum) ∧
      ∫ x, (l.map fun b => (hbox b).indicator g x).sum = (l.map fun b => ∫ x in hbox b, g x).sum := by
    intro l
    induction l with
    | nil => intro _; simp
    | cons b l ih =>
      intro hl
      obtain ⟨i1, i2⟩ := ih (fun b hb => hl b (by simp [hb]))
      have ib : Integrable ((hbox b).indicator g) := (integrable_indicator_iff (measurableSet_hbox b)).2 (hl b (by simp))
      simp only [List.map_cons, List.sum_cons]
      refine ⟨ib.add i1, ?_⟩
      rw [integral_add ib i1, i2, integral_indicator (measurableSet_hbox b)]
  rw [← (e bs hg).2, ← integral_indicator (measurableSet_hbox _)]
  congr 1
  funext x
  have hc := h.count x
  have h1 : ∀ (l : List (Pt ℝ d × ℝ)), (l.map fun b => (hbox b).indicator g x).sum
      = ((l.map fun b => if InHalfOpen b.1 b.2 x then 1 else 0).sum : ℕ) * g x := by
    intro l
    induction l with
    | nil => simp
    | cons b l ih =>
      simp only [List.map_cons, List.sum_cons, ih, Nat.cast_add, add_mul]
      congr 1
      by_cases hb : InHalfOpen b.1 b.2 x
      · rw [Set.indicator_of_mem (mem_hbox.2 hb), if_pos hb]; simp
      · rw [Set.indicator_of_notMem (fun h => hb (mem_hbox.1 h)), if_neg hb]; simp
  rw [h1, hc]
  by_cases hb : InHalfOpen c R x
  · rw [Set.indicator_of_mem (mem_hbox.2 hb), if_pos hb]; simp
  · rw [Set.indicator_of_notMem (fun h => hb (mem_hbox.1 h)), if_neg hb]; simp

/-- A box and a point of it: how far the Riemann summand is from the integral. -/
theorem cell_error {b : Pt ℝ d × ℝ} (hb : 0 ≤ b.2) {g : Pt ℝ d → ℝ} {x : Pt ℝ d} {δ : ℝ}
    (hi : IntegrableOn g (hbox b)) (hd : ∀ y ∈ hbox b, |g x - g y| ≤ δ) :
    |g x * (2 * b.2) ^ d - ∫ y in hbox b, g y| ≤ δ * (2 * b.2) ^ d := by
  have hv := volume_hbox hb
  have hfin : volume (hbox b) ≠ ⊤ := by rw [hv]; exact ENNReal.ofReal_ne_top
  have hr : (volume : Measure (Pt ℝ d)).real (hbox b) = (2 * b.2) ^ d := by
    unfold Measure.real
    rw [hv, ENNReal.toReal_ofReal (by positivity)]
  have hc : ∫ _ in hbox b, g x = g x * (2 * b.2) ^ d := by
    rw [setIntegral_const, hr, smul_eq_mul, mul_comm]
  have hci : IntegrableOn (fun _ : Pt ℝ d => g x) (hbox b) := integrableOn_const hfin
  rw [← hc, ← integral_sub hci hi, ← Real.norm_eq_abs]
  refine (norm_setIntegral_le_of_norm_le_const (C := δ) (lt_top_iff_ne_top.2 hfin) ?_).trans (by rw [hr])
  intro y hy
  rw [Real.norm_eq_abs]
  exact hd y hy

/-- Riemann sums over boxes that tile the root cube converge when the boxes shrink, uniformly in the points. -/
theorem riemann {c : Pt ℝ d} {R : ℝ} (hR : 0 ≤ R) {g : Pt ℝ d → ℝ} (hg : ContinuousOn g (closedCube c R)) {δ : ℝ}
    (hδ : 0 < δ) : ∃ η > 0, ∀ (ls : List ℕ) (box : ℕ → Pt ℝ d × ℝ) (pt : ℕ → Pt ℝ d),
      Tiles c R (ls.map box) → (∀ p ∈ ls, (box p).2 ≤ η) → (∀ p ∈ ls, pt p ∈ closedCube (box p).1 (box p).2) →
      |(ls.map fun p => g (pt p) * (2 * (box p).2) ^ d).sum - ∫ x in closedCube c R, g x| ≤ δ := by
  have hcomp : IsCompact (closedCube c R) := isCompact_Icc
  have huc := hcomp.uniformContinuousOn_of_continuous hg
  set V := (2 * R) ^ d with hV
  have hV0 : 0 ≤ V := by positivity
  obtain ⟨η, hη, hh⟩ := Metric.uniformContinuousOn_iff.1 huc (δ / (V + 1)) (by positivity)
  refine ⟨η / 3, by positivity, ?_⟩
  intro ls box pt ht hrad hpt
  have hpos : ∀ p ∈ ls, 0 ≤ (box p).2 := by
    intro p hp
    obtain ⟨k, hk⟩ := ht.radii (box p) (List.mem_map_of_mem hp)
    rw [hk]; positivity
  have hsub : ∀ b ∈ ls.map box, closedCube b.1 b.2 ⊆ closedCube c R := by
    intro b hb x hx
    exact mem_closedCube.2 (ht.sub b hb x (mem_closedCube.1 hx))
  have hsub2 : ∀ b : Pt ℝ d × ℝ, hbox b ⊆ closedCube b.1 b.2 := by
    intro b x hx
    exact mem_closedCube.2 fun i => ⟨(mem_hbox.1 hx i).1, (mem_hbox.1 hx i).2.le⟩
  have hint : ∀ b ∈ ls.map box, IntegrableOn g (hbox b) := by
    intro b hb
    exact (hg.integrableOn_compact hcomp).mono_set ((hsub2 b).trans (hsub b hb))
  rw [setIntegral_closedCube, ht.integral g hint]
  have hcell : ∀ p ∈ ls, |g (pt p) * (2 * (box p).2) ^ d - ∫ y in hbox (box p), g y|
      ≤ δ / (V + 1) * (2 * (box p).2) ^ d := by
    intro p hp
    have hb : box p ∈ ls.map box := List.mem_map_of_mem hp
    apply cell_error (hpos p hp) (hint _ hb)
    intro y hy
    have hy' := hsub2 _ hy
    have := hh (pt p) (hsub _ hb (hpt p hp)) y (hsub _ hb hy') (by
      rw [dist_pi_lt_iff hη]
      intro i
      have h1 := mem_closedCube.1 (hpt p hp) i
      have h2 := mem_closedCube.1 hy' i
      have h3 := hrad p hp
      rw [Real.dist_eq, abs_lt]
      constructor <;> linarith)
    rw [Real.dist_eq] at this
    exact this.le
  have hsum : ∀ l : List ℕ, (∀ p ∈ l, |g (pt p) * (2 * (box p).2) ^ d - ∫ y in hbox (box p), g y|
      ≤ δ / (V + 1) * (2 * (box p).2) ^ d) →
      |(l.map fun p => g (pt p) * (2 * (box p).2) ^ d).sum - (l.map fun p => ∫ x in hbox (box p), g x).sum|
        ≤ δ / (V + 1) * (l.map fun p => (2 * (box p).2) ^ d).sum := by
    intro l
    induction l with
    | nil => intro _; simp
    | cons b l ih =>
      intro hl
      have h1 := ih fun b hb => hl b (by simp [hb])
      have h2 := hl b (by simp)
      simp only [List.map_cons, List.sum_cons]
      rw [abs_le] at h1 h2 ⊢
      constructor <;> linarith
  have hvol := ht.vol
  rw [List.map_map] at hvol ⊢
  refine (hsum ls hcell).trans ?_
  have hvol' : (ls.map fun p => (2 * (box p).2) ^ d).sum = V := hvol
  rw [hvol', div_mul_eq_mul_div, div_le_iff₀ (by positivity)]
  nlinarith

end TPTree
end Verif
