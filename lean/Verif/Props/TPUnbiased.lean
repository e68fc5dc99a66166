import Verif.Proof.TPProb
import Verif.Proof.TPHist
import Mathlib.MeasureTheory.Measure.Haar.NormedSpace
import Mathlib.MeasureTheory.Measure.Lebesgue.EqHaar
import Mathlib.MeasureTheory.Integral.Bochner.Set
import Mathlib.MeasureTheory.Group.Integral

/-!
# C33: the weights of a refinement step estimate the integral of the target
-/

set_option linter.unusedSectionVars false
set_option autoImplicit false

namespace Verif

open MeasureTheory TPTree

variable {d : ℕ}

/-- The half open box of a cell. -/
def cellBox (n : TPNode ℝ d) : Set (Pt ℝ d) := Set.univ.pi fun i => Set.Ico (n.center i - n.radius) (n.center i + n.radius)

/-- The unit cube `[0,1)^d`, the range of the generator. -/
def unitCube (d : ℕ) : Set (Pt ℝ d) := Set.univ.pi fun _ => Set.Ico 0 1

/-- The generator: a point uniform in the unit cube. -/
noncomputable def uniformDraw (d : ℕ) : Measure (Pt ℝ d) := (volume : Measure (Pt ℝ d)).restrict (unitCube d)

theorem measurableSet_unitCube : MeasurableSet (unitCube d) := MeasurableSet.univ_pi fun _ => measurableSet_Ico

theorem measurableSet_cellBox (n : TPNode ℝ d) : MeasurableSet (cellBox n) :=
  MeasurableSet.univ_pi fun _ => measurableSet_Ico

instance : IsProbabilityMeasure (uniformDraw d) := ⟨by
  unfold uniformDraw unitCube
  rw [Measure.restrict_apply MeasurableSet.univ, Set.univ_inter, volume_pi_pi]
  simp⟩

theorem sample1_eq (n : TPNode ℝ d) (u : Pt ℝ d) :
    n.sampler.sample1 u = (fun i => n.center i - n.radius) + (2 * n.radius) • u := by
  funext i
  simp only [Uniform.sample1, TPNode.sampler, Pi.add_apply, Pi.smul_apply, smul_eq_mul]
  ring

theorem sample1_mem_iff (n : TPNode ℝ d) (hr : 0 < n.radius) (u : Pt ℝ d) :
    n.sampler.sample1 u ∈ cellBox n ↔ u ∈ unitCube d := by
  simp only [cellBox, unitCube, Set.mem_pi, Set.mem_univ, true_imp_iff, Set.mem_Ico]
  apply forall_congr'
  intro i
  simp only [Uniform.sample1, TPNode.sampler]
  constructor
  · rintro ⟨h1, h2⟩
    constructor <;> nlinarith
  · rintro ⟨h1, h2⟩
    constructor <;> nlinarith

/-- One cell: the weight as a function of the generator output is integrable with the right mean. -/
theorem cell_integral (n : TPNode ℝ d) (hr : 0 < n.radius) (f : Pt ℝ d → ℝ) (hf : IntegrableOn f (cellBox n)) :
    Integrable (fun u => f (n.sampler.sample1 u) * (2 * n.radius) ^ d) (uniformDraw d) ∧
    ∫ u, f (n.sampler.sample1 u) * (2 * n.radius) ^ d ∂(uniformDraw d) = ∫ x in cellBox n, f x := by
  have h2r : (2 * n.radius) ≠ 0 := by positivity
  set g := (cellBox n).indicator f with hg
  have hgi : Integrable g := (integrable_indicator_iff (measurableSet_cellBox n)).2 hf
  set a : Pt ℝ d := fun i => n.center i - n.radius with ha
  have hind : ∀ u, (unitCube d).indicator (fun u => f (n.sampler.sample1 u) * (2 * n.radius) ^ d) u
      = g (a + (2 * n.radius) • u) * (2 * n.radius) ^ d := by
    intro u
    rw [← sample1_eq]
    by_cases hu : u ∈ unitCube d
    · rw [Set.indicator_of_mem hu, hg, Set.indicator_of_mem ((sample1_mem_iff n hr u).2 hu)]
    · rw [Set.indicator_of_notMem hu, hg, Set.indicator_of_notMem (fun h => hu ((sample1_mem_iff n hr u).1 h)), zero_mul]
  have hga : Integrable (fun x => g (a + x)) := hgi.comp_add_left a
  have hgs : Integrable (fun u => g (a + (2 * n.radius) • u)) :=
    (integrable_comp_smul_iff volume (fun x => g (a + x)) h2r).2 hga
  constructor
  · unfold uniformDraw
    rw [← IntegrableOn, ← integrable_indicator_iff measurableSet_unitCube]
    rw [show (unitCube d).indicator (fun u => f (n.sampler.sample1 u) * (2 * n.radius) ^ d) = _ from funext hind]
    exact hgs.mul_const _
  · unfold uniformDraw
    rw [← integral_indicator measurableSet_unitCube, ← integral_indicator (measurableSet_cellBox n)]
    simp_rw [hind]
    rw [integral_mul_const, Measure.integral_comp_smul volume (fun x => g (a + x)),
      integral_add_left_eq_self (μ := volume) g a]
    have hfin : Module.finrank ℝ (Pt ℝ d) = d := by simp [Pt]
    rw [hfin, abs_of_pos (by positivity), smul_eq_mul, mul_comm, ← mul_assoc, mul_inv_cancel₀ (by positivity), one_mul]

/-- **C33** A point drawn uniformly in each of a list of cells and weighted by target over proposal density: the weight
is a real number for almost every outcome (all outcomes in the open cube), and the expectation of the total
weight over independent draws is the sum of the integrals of the target over the cells, which is the integral
over their union when the cells do not overlap. -/
theorem C33_unbiased (f : Pt ℝ d → ℝ) (ns : List (TPNode ℝ d)) (hr : ∀ n ∈ ns, 0 < n.radius)
    (hf : ∀ n ∈ ns, IntegrableOn f (cellBox n)) :
    ∃ w : Fin ns.length → Pt ℝ d → ℝ,
      (∀ k u, (∀ i, 0 < u i ∧ u i < 1) →
        XF.fin (f (ns[k].sampler.sample1 u)) / ns[k].sampler.prob1 (ns[k].sampler.sample1 u) = XF.fin (w k u)) ∧
      (∀ᵐ u ∂(uniformDraw d), ∀ i, 0 < u i ∧ u i < 1) ∧
      ∫ u : Fin ns.length → Pt ℝ d, ∑ k, w k (u k) ∂(Measure.pi fun _ => uniformDraw d)
        = (ns.map fun n => ∫ x in cellBox n, f x).sum ∧
      (ns.Pairwise (fun a b => Disjoint (cellBox a) (cellBox b)) →
        ∫ u : Fin ns.length → Pt ℝ d, ∑ k, w k (u k) ∂(Measure.pi fun _ => uniformDraw d)
          = ∫ x in {x | ∃ n ∈ ns, x ∈ cellBox n}, f x) := by
  have hE : ∫ u : Fin ns.length → Pt ℝ d, ∑ k : Fin ns.length, f (ns[k].sampler.sample1 (u k)) * (2 * ns[k].radius) ^ d
        ∂(Measure.pi fun _ => uniformDraw d) = ∑ k : Fin ns.length, ∫ x in cellBox ns[k], f x := by
    rw [integral_finset_sum]
    · apply Finset.sum_congr rfl
      intro k _
      have hk : ns[k] ∈ ns := List.getElem_mem _
      obtain ⟨h1, h2⟩ := cell_integral ns[k] (hr _ hk) f (hf _ hk)
      have mp := measurePreserving_eval (fun _ : Fin ns.length => uniformDraw d) k
      rw [← h2]
      have := integral_map (μ := Measure.pi fun _ : Fin ns.length => uniformDraw d) (φ := Function.eval k)
        mp.measurable.aemeasurable (f := fun u => f (ns[k].sampler.sample1 u) * (2 * ns[k].radius) ^ d)
        (by rw [mp.map_eq]; exact h1.aestronglyMeasurable)
      rw [mp.map_eq] at this
      rw [this]
    · intro k _
      have hk : ns[k] ∈ ns := List.getElem_mem _
      obtain ⟨h1, h2⟩ := cell_integral ns[k] (hr _ hk) f (hf _ hk)
      exact (measurePreserving_eval (fun _ : Fin ns.length => uniformDraw d) k).integrable_comp_of_integrable h1
  refine ⟨fun k u => f (ns[k].sampler.sample1 u) * (2 * ns[k].radius) ^ d, ?_, ?_, ?_, ?_⟩
  · intro k u hu
    have hk := hr ns[k] (List.getElem_mem _)
    rw [sampler_prob1, if_pos]
    · have hp : (2 * ns[k].radius) ^ d ≠ 0 := by positivity
      rw [XF.fin_div_ne _ _ hp, XF.fin_div_ne _ _ (by positivity)]
      simp
    · intro i
      simp only [Uniform.sample1, TPNode.sampler]
      have := hu i
      constructor <;> nlinarith
  · unfold uniformDraw
    rw [ae_restrict_iff' measurableSet_unitCube]
    have : ∀ᵐ u : Pt ℝ d, ∀ i, u i ≠ 0 := by
      rw [ae_all_iff]
      intro i
      have h0 : ∀ᵐ x : ℝ, x ≠ 0 := by
        rw [ae_iff]; simp
      exact (Measure.quasiMeasurePreserving_eval (fun _ : Fin d => (volume : Measure ℝ)) i).ae h0
    filter_upwards [this] with u hu hc i
    have := hc i (Set.mem_univ i)
    exact ⟨lt_of_le_of_ne this.1 (hu i).symm, this.2⟩
  · rw [hE]
    rw [← List.sum_ofFn]
    congr 1
    apply List.ext_getElem
    · simp
    · intro i h1 h2; simp
  · intro hd
    rw [hE]
    have hset : {x | ∃ n ∈ ns, x ∈ cellBox n} = ⋃ k : Fin ns.length, cellBox ns[k] := by
      ext x
      simp only [Set.mem_setOf_eq, Set.mem_iUnion]
      constructor
      · rintro ⟨n, hn, hx⟩
        obtain ⟨i, hi, rfl⟩ := List.mem_iff_getElem.1 hn
        exact ⟨⟨i, hi⟩, hx⟩
      · rintro ⟨k, hx⟩
        exact ⟨_, List.getElem_mem _, hx⟩
    rw [hset, integral_iUnion_fintype]
    · intro k; exact measurableSet_cellBox _
    · intro a b hab
      rw [List.pairwise_iff_getElem] at hd
      rcases lt_or_gt_of_ne (fun h => hab (Fin.ext h) : (a : ℕ) ≠ b) with h | h
      · exact hd a b a.2 b.2 h
      · exact (hd b a b.2 a.2 h).symm
    · intro k; exact hf _ (List.getElem_mem _)

/-- Applied to the leaves of a tree with any history: the expected total weight of one sample per leaf is the integral
of the target over the (half open) cube of the root. -/
theorem C33_tree {dmin dmax : Pt ℝ d} (hlt : ∀ i, dmin i < dmax i) {ops : List (TPOp ℝ d)} {T : TPTree ℝ d} {e : ℕ}
    (h : TPReach dmin dmax ops T e) (f : Pt ℝ d → ℝ) (hf : Integrable f) (ns : List (TPNode ℝ d))
    (hns : T.leaves.map (fun p => T.nodes[p]?) = ns.map some) :
    ∃ (R : ℝ) (w : Fin ns.length → Pt ℝ d → ℝ), (∀ i, (dmax i - dmin i) / 2 ≤ R) ∧
      (∀ k u, (∀ i, 0 < u i ∧ u i < 1) →
        XF.fin (f (ns[k].sampler.sample1 u)) / ns[k].sampler.prob1 (ns[k].sampler.sample1 u) = XF.fin (w k u)) ∧
      ∫ u : Fin ns.length → Pt ℝ d, ∑ k, w k (u k) ∂(Measure.pi fun _ => uniformDraw d)
        = ∫ x in Set.univ.pi fun i => Set.Ico ((dmin i + dmax i) / 2 - R) ((dmin i + dmax i) / 2 + R), f x := by
  obtain ⟨R, ⟨i0, hi0⟩, hRle, r⟩ := reached_of h
  have hR : 0 < R := by
    rw [hi0]; have := hlt i0; linarith
  have tiles := r.tiles hR.le
  have hboxes : T.leafBoxes = ns.map fun n => (n.center, n.radius) := by
    have := congrArg (List.map fun o : Option (TPNode ℝ d) => match o with
      | some n => (n.center, n.radius)
      | none => ((fun _ => 0 : Pt ℝ d), (0 : ℝ))) hns
    rw [List.map_map, List.map_map] at this
    unfold leafBoxes
    rw [show (T.leaves.map T.box) = T.leaves.map ((fun o : Option (TPNode ℝ d) => match o with
      | some n => (n.center, n.radius)
      | none => ((fun _ => 0 : Pt ℝ d), (0 : ℝ))) ∘ fun p => T.nodes[p]?) from ?_, this]
    · rfl
    · apply List.map_congr_left
      intro p hp
      obtain ⟨n, hn, _⟩ := r.wf.leaf_node hp
      simp [box, hn]
  have hrn : ∀ n ∈ ns, 0 < n.radius := by
    intro n hn
    obtain ⟨k, hk⟩ := tiles.radii (n.center, n.radius) (by rw [hboxes]; exact List.mem_map.2 ⟨n, hn, rfl⟩)
    simp only at hk
    rw [hk]; positivity
  obtain ⟨w, h1, h2, h3, h4⟩ := C33_unbiased f ns hrn (fun n _ => hf.integrableOn)
  refine ⟨R, w, hRle, h1, ?_⟩
  rw [h3]
  have e1 : (ns.map fun n => ∫ x in cellBox n, f x).sum = ∫ x, (ns.map fun n => (cellBox n).indicator f x).sum := by
    clear h4 h2 h1 h3 w hns hboxes hrn
    induction ns with
    | nil => simp
    | cons n ns ih =>
      simp only [List.map_cons, List.sum_cons]
      have hi : ∀ l : List (TPNode ℝ d), Integrable fun x => (l.map fun n => (cellBox n).indicator f x).sum := by
        intro l
        induction l with
        | nil => simp
        | cons m l ih2 =>
          simp only [List.map_cons, List.sum_cons]
          exact (hf.indicator (measurableSet_cellBox m)).add ih2
      rw [integral_add (hf.indicator (measurableSet_cellBox n)) (hi ns), ih, integral_indicator (measurableSet_cellBox n)]
  rw [e1, ← integral_indicator (MeasurableSet.univ_pi fun _ => measurableSet_Ico)]
  congr 1
  funext x
  have hc := tiles.count x
  rw [hboxes, List.map_map] at hc
  have hmem : ∀ (c : Pt ℝ d) (r : ℝ), (x ∈ Set.univ.pi fun i => Set.Ico (c i - r) (c i + r)) ↔ InHalfOpen c r x := by
    intro c r
    simp [Set.mem_pi, InHalfOpen]
  have e2 : (ns.map fun n => (cellBox n).indicator f x).sum
      = ((ns.map fun n => if InHalfOpen n.center n.radius x then 1 else 0).sum : ℕ) * f x := by
    clear hc hboxes hns hrn e1 h4 h2 h1 h3 w
    induction ns with
    | nil => simp
    | cons n ns ih =>
      simp only [List.map_cons, List.sum_cons, ih]
      push_cast
      rw [add_mul]
      congr 1
      unfold cellBox
      by_cases hx : InHalfOpen n.center n.radius x
      · rw [Set.indicator_of_mem ((hmem _ _).2 hx), if_pos hx]; simp
      · rw [Set.indicator_of_notMem (fun h => hx ((hmem _ _).1 h)), if_neg hx]; simp
  have hc' : (ns.map fun n => if InHalfOpen n.center n.radius x then 1 else 0).sum
      = if InHalfOpen (fun i => (dmin i + dmax i) / 2) R x then 1 else 0 := hc
  rw [e2, hc']
  by_cases hx : InHalfOpen (fun i => (dmin i + dmax i) / 2) R x
  · rw [Set.indicator_of_mem ((hmem _ _).2 hx), if_pos hx]; simp
  · rw [Set.indicator_of_notMem (fun h => hx ((hmem _ _).1 h)), if_neg hx]; simp

/-- Two cells in dimension 1 that do not overlap, and an integrable target. -/
example : ∃ (a b : TPNode ℝ 1) (f : Pt ℝ 1 → ℝ), 0 < a.radius ∧ 0 < b.radius ∧
    [a, b].Pairwise (fun a b => Disjoint (cellBox a) (cellBox b)) ∧ IntegrableOn f (cellBox a) ∧
    IntegrableOn f (cellBox b) ∧ ∫ x in cellBox a, f x ≠ 0 := by
  have vol : ∀ n : TPNode ℝ 1, volume (cellBox n) = ENNReal.ofReal (2 * n.radius) := by
    intro n
    unfold cellBox
    rw [volume_pi_pi, Fin.prod_univ_one, Real.volume_Ico]
    congr 1; ring
  refine ⟨TPNode.new ![1] 1 0 0 0 (XF.fin 0), TPNode.new ![4] 2 0 0 0 (XF.fin 0), fun _ => 1, ?_, ?_, ?_, ?_, ?_, ?_⟩
  · norm_num [TPNode.new]
  · norm_num [TPNode.new]
  · simp only [List.pairwise_cons, List.mem_singleton, forall_eq, List.not_mem_nil, List.Pairwise.nil, and_true]
    refine ⟨?_, by simp⟩
    rw [Set.disjoint_left]
    intro x h1 h2
    have a1 := (h1 0 (Set.mem_univ _)).2
    have a2 := (h2 0 (Set.mem_univ _)).1
    simp [TPNode.new] at a1 a2
    linarith
  · exact integrableOn_const (by rw [vol]; exact ENNReal.ofReal_ne_top)
  · exact integrableOn_const (by rw [vol]; exact ENNReal.ofReal_ne_top)
  · rw [setIntegral_const]
    simp [Measure.real, vol, TPNode.new]

end Verif
