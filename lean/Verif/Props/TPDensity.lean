import Verif.Proof.TPProb

/-!
# C28: the haar proposal of the tree pyramid is a density
-/

set_option linter.unusedSectionVars false
set_option autoImplicit false

namespace Verif

open TPTree MeasureTheory

variable {K : Type*} [Field K] [LinearOrder K] [IsStrictOrderedRing K] {d : ℕ}

theorem TPTree.Reached.radius_pos {c : Pt K d} {R : K} {T : TPTree K d} {e : ℕ} (r : Reached c R T e) (hR : 0 < R) {p : ℕ}
    (hp : p ∈ T.leaves) : 0 < (T.box p).2 := by
  obtain ⟨k, hk⟩ := (r.tiles hR.le).radii (T.box p) (List.mem_map.2 ⟨p, hp, rfl⟩)
  rw [hk]
  positivity

/-- **C28**, pointwise part: `prob` never meets two leaves; inside a leaf it is the leaf weight divided by the leaf
volume, on leaf borders and outside all leaves it is 0. -/
theorem C28_prob_pointwise {dmin dmax : Pt K d} (hlt : ∀ i, dmin i < dmax i) {ops : List (TPOp K d)} {T : TPTree K d}
    {e : ℕ} (h : TPReach dmin dmax ops T e) (w : ℕ → K)
    (hw : ∀ p ∈ T.leaves, T.weights[p]? = some (XF.fin (w p))) (x : Pt K d) :
    ∃ v, T.prob1 x = .ok (XF.fin v) ∧
      (∀ p ∈ T.leaves, ∀ n, T.nodes[p]? = some n →
        (∀ i, n.center i - n.radius < x i ∧ x i < n.center i + n.radius) → v = w p / (2 * n.radius) ^ d) ∧
      ((∀ p ∈ T.leaves, ∀ n, T.nodes[p]? = some n →
        ¬ ∀ i, n.center i - n.radius < x i ∧ x i < n.center i + n.radius) → v = 0) := by
  obtain ⟨R, ⟨i0, hi0⟩, _, r⟩ := reached_of h
  have hR : 0 < R := by
    rw [hi0]
    have := hlt i0
    linarith
  have t := r.tiles hR.le
  have I := r.wf
  refine ⟨_, prob1_spec I t w hw (fun p hp => r.radius_pos hR hp) x, ?_, ?_⟩
  · intro p0 hp0 n hn hx
    have hb : T.box p0 = (n.center, n.radius) := by simp [box, hn]
    have hx0 : T.inOpen p0 x := by
      unfold inOpen
      rw [hb]; exact hx
    have : (T.leaves.map fun p => if T.inOpen p x then w p / (2 * (T.box p).2) ^ d else 0)
        = T.leaves.map fun p => if p = p0 then w p0 / (2 * n.radius) ^ d else 0 := by
      apply List.map_congr_left
      intro p hp
      by_cases hpp : p = p0
      · subst hpp; simp [hx0, hb]
      · rw [if_neg hpp, if_neg]
        exact fun hx => hpp (t.unique hp hp0 hx hx0)
    rw [this]
    clear this
    have key : ∀ (l : List ℕ) (v : K), l.Nodup → p0 ∈ l → (l.map fun p => if p = p0 then v else 0).sum = v := by
      intro l v
      induction l with
      | nil => intro _ h; simp at h
      | cons a l ih =>
        intro hnd hm
        rw [List.nodup_cons] at hnd
        simp only [List.map_cons, List.sum_cons]
        by_cases ha : a = p0
        · subst ha
          have : (l.map fun p => if p = a then v else 0).sum = 0 := by
            apply List.sum_eq_zero
            intro b hb
            obtain ⟨q, hq, rfl⟩ := List.mem_map.1 hb
            rw [if_neg]
            rintro rfl
            exact hnd.1 hq
          rw [this]; simp
        · rw [if_neg ha, zero_add]
          apply ih hnd.2
          rcases List.mem_cons.1 hm with h | h
          · exact absurd h.symm ha
          · exact h
    exact key _ _ I.leavesNodup hp0
  · intro hno
    apply List.sum_eq_zero
    intro v hv
    obtain ⟨p, hp, rfl⟩ := List.mem_map.1 hv
    obtain ⟨n, hn, _⟩ := I.leaf_node hp
    rw [if_neg]
    have := hno p hp n hn
    unfold inOpen
    simpa only [box, hn] using this

/-- A tree with two leaves of different weights; a point inside the second leaf and the border point between them. -/
example : ∃ T e, TPReach (K := ℚ) (d := 1) ![0] ![1] [.expand 0 none 5,
      .weigh 1 (fun _ => XF.fin 1) (fun _ => XF.fin 1), .weigh 2 (fun _ => XF.fin 3) (fun _ => XF.fin 1)] T e ∧
    decide (T.leaves = [1, 2] ∧ T.weights = [XF.fin 0, XF.fin 1, XF.fin 3] ∧
      (T.prob1 ![3/4]).toOption = some (XF.fin 6) ∧ (T.prob1 ![1/2]).toOption = some (XF.fin 0)) = true :=
  of_reachCheck (by decide +kernel)

/-- **C28**, normalisation: after the model update the proposal is a probability density: it is defined everywhere,
nonnegative, and integrates to 1. -/
theorem C28_prob_integrates {dmin dmax : Pt ℝ d} (hlt : ∀ i, dmin i < dmax i) {ops : List (TPOp ℝ d)}
    {S S' : TPSampler ℝ d} {e : ℕ} (h : TPReach dmin dmax ops S.T e) (w : ℕ → ℝ)
    (hw : ∀ p ∈ S.T.leaves, S.T.weights[p]? = some (XF.fin (w p))) (hw0 : ∀ p ∈ S.T.leaves, 0 ≤ w p)
    (hpos : 0 < (S.T.leaves.map w).sum) (hup : S.updateModel = .ok S') :
    ∃ f : Pt ℝ d → ℝ, (∀ x, S'.T.prob1 x = .ok (XF.fin (f x))) ∧ (∀ x, 0 ≤ f x) ∧ Integrable f ∧ ∫ x, f x = 1 := by
  obtain ⟨R, ⟨i0, hi0⟩, _, r0⟩ := reached_of h
  have hR : 0 < R := by
    rw [hi0]
    have := hlt i0
    linarith
  have hT : S'.T = S.T.selfNormalize := by
    unfold TPSampler.updateModel at hup
    simp only at hup
    cases hs : setWeights ((maskSelect S.T.leavesIdx S.T.centers).zip (maskSelect S.T.leavesIdx S.T.radii)).length
      (maskSelect S.T.leavesIdx S.T.weights) with
    | error => rw [hs] at hup; simp [Except.map] at hup
    | ok m =>
      rw [hs] at hup
      simp only [Except.map, Except.ok.injEq] at hup
      rw [← hup]
  have hsame := selfNormalize_same r0.wf
  have r := r0.same hsame
  have hl : S.T.selfNormalize.leaves = S.T.leaves := hsame.leaves
  have hw' := selfNormalize_weights r0.wf w hw hpos
  have hrad : ∀ p ∈ S.T.selfNormalize.leaves, 0 < (S.T.selfNormalize.box p).2 := fun p hp => r.radius_pos hR hp
  rw [hT]
  have hI := integral_pieces S.T.selfNormalize.leaves S.T.selfNormalize.box
    (fun p => w p / (S.T.leaves.map w).sum) hrad
  refine ⟨_, fun x => prob1_spec r.wf (r.tiles hR.le) (fun p => w p / (S.T.leaves.map w).sum)
    (fun p hp => hw' p (hl ▸ hp)) hrad x, ?_, hI.1, ?_⟩
  · intro x
    apply List.sum_nonneg
    intro v hv
    obtain ⟨p, hp, rfl⟩ := List.mem_map.1 hv
    split_ifs
    · have h1 := hw0 p (hl ▸ hp)
      have h2 := hrad p hp
      positivity
    · exact le_rfl
  · have h2 := hI.2
    unfold inOpen
    rw [h2, hl]
    have : (S.T.leaves.map fun p => w p / (S.T.leaves.map w).sum)
        = (S.T.leaves.map w).map fun a => a * (S.T.leaves.map w).sum⁻¹ := by
      rw [List.map_map]; rfl
    rw [this, List.sum_map_mul_right, List.map_id']
    exact mul_inv_cancel₀ hpos.ne'

/-- The hypotheses are met by the tree of a single weighed root. -/
example : ∃ (S : TPSampler ℝ 1) (S' : TPSampler ℝ 1) (w : ℕ → ℝ), (∀ i, (![0] : Pt ℝ 1) i < (![1] : Pt ℝ 1) i) ∧
    TPReach ![0] ![1] [.weigh 0 (fun _ => XF.fin 2) (fun _ => XF.fin 1)] S.T 0 ∧
    (∀ p ∈ S.T.leaves, S.T.weights[p]? = some (XF.fin (w p))) ∧ (∀ p ∈ S.T.leaves, 0 ≤ w p) ∧
    0 < (S.T.leaves.map w).sum ∧ S.updateModel = .ok S' := by
  have h : ∃ T, TPReach (K := ℝ) (d := 1) ![0] ![1] [.weigh 0 (fun _ => XF.fin 2) (fun _ => XF.fin 1)] T 0 ∧
      T.leaves = [0] ∧ T.weights = [XF.fin 2 / XF.fin 1] ∧ T.leavesIdx = [true] ∧ T.centers.length = 1 ∧
      T.radii.length = 1 := ⟨_, ⟨_, rfl, rfl⟩, rfl, rfl, rfl, rfl, rfl⟩
  obtain ⟨T, hT, hl, hw, hm, hc, hr⟩ := h
  have hw' : T.weights = [XF.fin 2] := by rw [hw, XF.fin_div_ne _ _ one_ne_zero]; simp
  obtain ⟨c, hc⟩ := List.length_eq_one_iff.1 hc
  obtain ⟨r, hr⟩ := List.length_eq_one_iff.1 hr
  refine ⟨⟨T, 0, 0, 0, ([], [])⟩, ⟨T.selfNormalize, 0, 0, 0, ([(c, r)], (normWeights (cleanWeights [XF.fin 2])))⟩,
    fun _ => 2, ?_, hT, ?_, ?_, ?_, ?_⟩
  · intro i; fin_cases i; simp
  · simp [hl, hw']
  · simp
  · simp [hl]
  · simp [TPSampler.updateModel, hm, hc, hr, hw', maskSelect, setWeights, Except.map]

end Verif
