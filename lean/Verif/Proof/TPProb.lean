import Verif.Proof.TPReach
import Verif.Proof.Uniform
import Mathlib.Data.List.Perm.Basic

set_option linter.unusedSectionVars false
set_option autoImplicit false

namespace Verif

namespace TPTree

section
variable {K : Type*} [Field K] [LinearOrder K] [IsStrictOrderedRing K] {d : ℕ}

theorem maskSelect_eq {α : Type*} : ∀ (m : List Bool) (l : List α),
    maskSelect m l = (List.range l.length).filterMap fun i => if m[i]? = some true then l[i]? else none
  | [], l => by simp [maskSelect]
  | _ :: _, [] => by simp [maskSelect]
  | true :: m, a :: l => by
    rw [maskSelect, maskSelect_eq m l, List.length_cons, List.range_succ_eq_map, List.filterMap_cons,
      List.filterMap_map]
    simp [Function.comp_def]
  | false :: m, a :: l => by
    rw [maskSelect, maskSelect_eq m l, List.length_cons, List.range_succ_eq_map, List.filterMap_cons,
      List.filterMap_map]
    simp [Function.comp_def]

theorem WF.leavesNodup {T : TPTree K d} (I : WF T) : T.leaves.Nodup := by
  rw [List.nodup_iff_getElem?_ne_getElem?]
  intro i j hij hjl heq
  rw [List.getElem?_eq_getElem hjl] at heq
  obtain ⟨n, hn, h1⟩ := I.leafPos i _ heq
  obtain ⟨m, hm, h2⟩ := I.leafPos j _ (List.getElem?_eq_getElem hjl)
  rw [hn] at hm
  obtain rfl : n = m := by simpa using hm
  rw [h1] at h2
  omega

theorem WF.mask_iff {T : TPTree K d} (I : WF T) (i : ℕ) : T.leavesIdx[i]? = some true ↔ i ∈ T.leaves := by
  rw [I.mask, List.getElem?_map]
  constructor
  · intro h
    cases hn : T.nodes[i]? with
    | none => rw [hn] at h; simp at h
    | some n =>
      rw [hn] at h
      obtain ⟨j, _, hj⟩ := I.leafSlot hn (by simpa using h)
      exact List.mem_iff_getElem?.2 ⟨j, hj⟩
  · intro hm
    obtain ⟨j, hj⟩ := List.mem_iff_getElem?.1 hm
    obtain ⟨n, hn, hnl⟩ := I.leafPos j i hj
    rw [hn]
    simp only [Option.map_some, Option.some.injEq]
    rw [isLeaf_iff, hnl]
    omega

theorem WF.leaf_lt {T : TPTree K d} (I : WF T) {p : ℕ} (hp : p ∈ T.leaves) : p < T.nodes.length := by
  obtain ⟨j, hj⟩ := List.mem_iff_getElem?.1 hp
  obtain ⟨n, hn, _⟩ := I.leafPos j p hj
  exact (List.getElem?_eq_some_iff.1 hn).1

theorem WF.leaf_node {T : TPTree K d} (I : WF T) {p : ℕ} (hp : p ∈ T.leaves) :
    ∃ n, T.nodes[p]? = some n ∧ n.isLeaf = true := by
  obtain ⟨j, hj⟩ := List.mem_iff_getElem?.1 hp
  obtain ⟨n, hn, hl⟩ := I.leafPos j p hj
  exact ⟨n, hn, by rw [isLeaf_iff, hl]; omega⟩

/-- The masked entries of a cached array are the entries at the leaf references, up to order. -/
theorem WF.maskSelect_perm {α : Type*} {T : TPTree K d} (I : WF T) (l : List α) (hl : l.length = T.nodes.length)
    (F : ℕ → α) (hF : ∀ p ∈ T.leaves, l[p]? = some (F p)) :
    (maskSelect T.leavesIdx l).Perm (T.leaves.map F) := by
  rw [maskSelect_eq]
  have h1 : (List.range l.length).filterMap (fun i => if T.leavesIdx[i]? = some true then l[i]? else none)
      = ((List.range l.length).filter fun i => decide (i ∈ T.leaves)).map F := by
    rw [← List.filterMap_eq_map, List.filterMap_filter]
    apply List.filterMap_congr
    intro i hi
    by_cases h : i ∈ T.leaves
    · rw [if_pos ((I.mask_iff i).2 h), hF i h]
      simp [h]
    · rw [if_neg (fun h' => h ((I.mask_iff i).1 h'))]
      simp [h]
  rw [h1]
  apply List.Perm.map
  rw [List.perm_ext_iff_of_nodup (List.nodup_range.filter _) I.leavesNodup]
  intro i
  simp only [List.mem_filter, List.mem_range, decide_eq_true_eq, hl]
  constructor
  · exact fun h => h.2
  · exact fun h => ⟨I.leaf_lt h, h⟩

/-- `x` is in the interior of the leaf `p`. -/
def inOpen (T : TPTree K d) (p : ℕ) (x : Pt K d) : Prop :=
  ∀ i, (T.box p).1 i - (T.box p).2 < x i ∧ x i < (T.box p).1 i + (T.box p).2

instance (T : TPTree K d) (p : ℕ) (x : Pt K d) : Decidable (T.inOpen p x) := by
  unfold inOpen; infer_instance

theorem Tiles.unique {T : TPTree K d} {c : Pt K d} {R : K} (t : Tiles c R T.leafBoxes) {p q : ℕ}
    (hp : p ∈ T.leaves) (hq : q ∈ T.leaves) {x : Pt K d} (hpx : T.inOpen p x) (hqx : T.inOpen q x) : p = q := by
  by_contra hpq
  have hle := t.count x
  rw [sum_ite_eq_countP] at hle
  have h1 : T.leafBoxes.countP (fun b => decide (InHalfOpen b.1 b.2 x)) ≤ 1 := by
    rw [hle]; split_ifs <;> omega
  unfold leafBoxes at h1
  rw [List.countP_map] at h1
  have hsub : List.Subperm [p, q] T.leaves := by
    apply List.subperm_of_subset
    · simp [hpq]
    · intro a ha
      simp at ha
      rcases ha with rfl | rfl <;> assumption
  have := hsub.countP_le (p := (fun b : Pt K d × K => decide (InHalfOpen b.1 b.2 x)) ∘ T.box)
  have hp' : InHalfOpen (T.box p).1 (T.box p).2 x := fun i => ⟨(hpx i).1.le, (hpx i).2⟩
  have hq' : InHalfOpen (T.box q).1 (T.box q).2 x := fun i => ⟨(hqx i).1.le, (hqx i).2⟩
  simp [List.countP_cons, hp', hq'] at this
  omega

/-- Row `i` of the arrays used by `prob`. -/
theorem rows_getElem? {T : TPTree K d} (I : WF T) (i : ℕ) (row : (Bool × Pt K d × K) × XF K)
    (h : ((T.leavesIdx.zip (T.centers.zip T.radii)).zip T.weights)[i]? = some row) :
    (row.1.1 = true ↔ i ∈ T.leaves) ∧ row.1.2 = T.box i ∧ T.weights[i]? = some row.2 := by
  rw [List.getElem?_zip_eq_some, List.getElem?_zip_eq_some, List.getElem?_zip_eq_some] at h
  obtain ⟨⟨h1, h2, h3⟩, h4⟩ := h
  refine ⟨?_, ?_, h4⟩
  · rw [← I.mask_iff, h1]; simp
  · rw [I.centers, List.getElem?_map] at h2
    rw [I.radii, List.getElem?_map] at h3
    unfold box
    cases hn : T.nodes[i]? with
    | none => rw [hn] at h2; simp at h2
    | some n =>
      rw [hn] at h2 h3
      simp at h2 h3
      exact Prod.ext h2.symm h3.symm

theorem rows_exists {T : TPTree K d} (I : WF T) (i : ℕ) (hi : i < T.nodes.length) :
    ∃ row, ((T.leavesIdx.zip (T.centers.zip T.radii)).zip T.weights)[i]? = some row := by
  refine ⟨_, List.getElem?_eq_getElem ?_⟩
  simp [I.lenMask, I.centers, I.radii, I.lenW, hi]

theorem prob1_spec {T : TPTree K d} (I : WF T) {c : Pt K d} {R : K} (t : Tiles c R T.leafBoxes)
    (w : ℕ → K) (hw : ∀ p ∈ T.leaves, T.weights[p]? = some (XF.fin (w p)))
    (hr : ∀ p ∈ T.leaves, 0 < (T.box p).2) (x : Pt K d) :
    T.prob1 x = .ok (XF.fin (T.leaves.map fun p => if T.inOpen p x then w p / (2 * (T.box p).2) ^ d else 0).sum) := by
  unfold prob1
  simp only
  set rows := (T.leavesIdx.zip (T.centers.zip T.radii)).zip T.weights with hrows
  set P : (Bool × Pt K d × K) × XF K → Bool :=
    fun row => match row with | ((b, c, r), _) => b && decide (∀ i, c i - r < x i ∧ x i < c i + r) with hP
  have Piff : ∀ i row, rows[i]? = some row → (P row = true ↔ i ∈ T.leaves ∧ T.inOpen i x) := by
    intro i row hrow
    obtain ⟨h1, h2, h3⟩ := rows_getElem? I i row hrow
    obtain ⟨⟨b, c', r'⟩, w'⟩ := row
    simp only at h1 h2
    simp only [hP, Bool.and_eq_true, decide_eq_true_eq, h1, inOpen, ← h2]
  have hsum : ∀ p0, p0 ∈ T.leaves → T.inOpen p0 x →
      (T.leaves.map fun p => if T.inOpen p x then w p / (2 * (T.box p).2) ^ d else 0).sum
        = w p0 / (2 * (T.box p0).2) ^ d := by
    intro p0 hp0 hx0
    have : (T.leaves.map fun p => if T.inOpen p x then w p / (2 * (T.box p).2) ^ d else 0)
        = T.leaves.map fun p => if p = p0 then w p0 / (2 * (T.box p0).2) ^ d else 0 := by
      apply List.map_congr_left
      intro p hp
      by_cases h : p = p0
      · subst h; simp [hx0]
      · rw [if_neg h, if_neg]
        exact fun hx => h (t.unique hp hp0 hx hx0)
    rw [this]
    have key : ∀ (l : List ℕ) (v : K), l.Nodup → p0 ∈ l → (l.map fun p => if p = p0 then v else 0).sum = v := by
      intro l v
      induction l with
      | nil => intro _ h; simp at h
      | cons a l ih =>
        intro hnd hm
        rw [List.nodup_cons] at hnd
        simp only [List.map_cons, List.sum_cons]
        by_cases ha : a = p0
        · subst ha
          have : (l.map fun p => if p = a then v else 0).sum = 0 := by
            apply List.sum_eq_zero
            intro b hb
            obtain ⟨q, hq, rfl⟩ := List.mem_map.1 hb
            rw [if_neg]
            rintro rfl
            exact hnd.1 hq
          rw [this]; simp
        · rw [if_neg ha, zero_add]
          apply ih hnd.2
          rcases List.mem_cons.1 hm with h | h
          · exact absurd h.symm ha
          · exact h
    exact key _ _ I.leavesNodup hp0
  have hpair : rows.Pairwise fun a b => ¬ (P a = true ∧ P b = true) := by
    rw [List.pairwise_iff_getElem]
    intro i j hi hj hij ⟨h1, h2⟩
    rw [Piff i _ (List.getElem?_eq_getElem hi)] at h1
    rw [Piff j _ (List.getElem?_eq_getElem hj)] at h2
    have := t.unique h1.1 h2.1 h1.2 h2.2
    omega
  cases hf : rows.filter P with
  | nil =>
    simp only [Except.ok.injEq, XF.fin.injEq]
    symm
    apply List.sum_eq_zero
    intro v hv
    obtain ⟨p, hp, rfl⟩ := List.mem_map.1 hv
    rw [if_neg]
    intro hx
    obtain ⟨row, hrow⟩ := rows_exists I p (I.leaf_lt hp)
    have : row ∈ rows.filter P :=
      List.mem_filter.2 ⟨List.mem_iff_getElem?.2 ⟨p, hrow⟩, (Piff p row hrow).2 ⟨hp, hx⟩⟩
    rw [hf] at this
    simp at this
  | cons a l =>
    cases l with
    | nil =>
      obtain ⟨⟨b, c', r'⟩, w'⟩ := a
      have ha : ((b, c', r'), w') ∈ rows.filter P := by rw [hf]; simp
      obtain ⟨ham, haP⟩ := List.mem_filter.1 ha
      obtain ⟨i, hi⟩ := List.mem_iff_getElem?.1 ham
      obtain ⟨hl, hx⟩ := (Piff i _ hi).1 haP
      obtain ⟨_, h2, h3⟩ := rows_getElem? I i _ hi
      simp only at h2 h3
      rw [hw i hl] at h3
      obtain rfl : XF.fin (w i) = w' := by simpa using h3
      rw [hsum i hl hx]
      have hr' : r' = (T.box i).2 := by rw [← h2]
      simp only
      rw [hr', XF.fin_div_ne]
      have := hr i hl
      positivity
    | cons b l =>
      exfalso
      have h1 := hpair.filter P
      rw [hf, List.pairwise_cons] at h1
      have ha : a ∈ rows.filter P := by rw [hf]; simp
      have hb : b ∈ rows.filter P := by rw [hf]; simp
      exact h1.1 b (by simp) ⟨(List.mem_filter.1 ha).2, (List.mem_filter.1 hb).2⟩

theorem selfNormalize_weights {T : TPTree K d} (I : WF T) (w : ℕ → K)
    (hw : ∀ p ∈ T.leaves, T.weights[p]? = some (XF.fin (w p))) (hs : 0 < (T.leaves.map w).sum) :
    ∀ p ∈ T.leaves, T.selfNormalize.weights[p]? = some (XF.fin (w p / (T.leaves.map w).sum)) := by
  have hsum : (maskSelect T.leavesIdx T.weights).sum = XF.fin (T.leaves.map w).sum := by
    rw [(I.maskSelect_perm T.weights I.lenW (fun p => XF.fin (w p)) hw).sum_eq, ← XF.sum_map_fin, List.map_map]
    rfl
  intro p hp
  unfold selfNormalize
  simp only [hsum]
  rw [if_pos (by simp [XF.ltb, hs])]
  simp only [maskUpdate, List.getElem?_map, List.getElem?_zip_eq_some]
  have hm := (I.mask_iff p).2 hp
  have : (T.weights.zipIdx.zip T.leavesIdx)[p]? = some ((XF.fin (w p), p), true) := by
    rw [List.getElem?_zip_eq_some]
    refine ⟨?_, hm⟩
    rw [List.getElem?_zipIdx, hw p hp]
    simp
  rw [this]
  simp [XF.fin_div_ne _ _ hs.ne']

end

open MeasureTheory

variable {d : ℕ}

/-- The integral of a piecewise constant function on open cubes. -/
theorem integral_pieces (L : List ℕ) (box : ℕ → Pt ℝ d × ℝ) (w : ℕ → ℝ) (hr : ∀ p ∈ L, 0 < (box p).2) :
    Integrable (fun x : Pt ℝ d => (L.map fun p => if (∀ i, (box p).1 i - (box p).2 < x i ∧ x i < (box p).1 i + (box p).2)
      then w p / (2 * (box p).2) ^ d else 0).sum) ∧
    ∫ x : Pt ℝ d, (L.map fun p => if (∀ i, (box p).1 i - (box p).2 < x i ∧ x i < (box p).1 i + (box p).2)
      then w p / (2 * (box p).2) ^ d else 0).sum = (L.map w).sum := by
  have piece : ∀ p, (fun x : Pt ℝ d => if (∀ i, (box p).1 i - (box p).2 < x i ∧ x i < (box p).1 i + (box p).2)
      then w p / (2 * (box p).2) ^ d else 0)
      = (Set.univ.pi fun i => Set.Ioo ((box p).1 i - (box p).2) ((box p).1 i + (box p).2)).indicator
          (fun _ => w p / (2 * (box p).2) ^ d) := by
    intro p
    funext x
    by_cases hx : ∀ i, (box p).1 i - (box p).2 < x i ∧ x i < (box p).1 i + (box p).2
    · rw [if_pos hx, Set.indicator_of_mem]
      intro i _
      exact hx i
    · rw [if_neg hx, Set.indicator_of_notMem]
      intro h
      exact hx fun i => h i (Set.mem_univ i)
  have hint : ∀ p, Integrable (fun x : Pt ℝ d => if (∀ i, (box p).1 i - (box p).2 < x i ∧ x i < (box p).1 i + (box p).2)
      then w p / (2 * (box p).2) ^ d else 0) := by
    intro p
    rw [piece, integrable_indicator_iff (MeasurableSet.univ_pi fun i => measurableSet_Ioo)]
    apply integrableOn_const
    · rw [volume_pi_pi]
      apply ENNReal.prod_ne_top
      intro i _
      simp
    · simp
  induction L with
  | nil => simp
  | cons p L ih =>
    obtain ⟨ih1, ih2⟩ := ih (fun q hq => hr q (List.mem_cons_of_mem _ hq))
    simp only [List.map_cons, List.sum_cons]
    refine ⟨(hint p).add ih1, ?_⟩
    rw [integral_add (hint p) ih1, ih2, piece p, Uniform.integral_indicator_box _ fun i => measurableSet_Ioo]
    congr 1
    have hp := hr p (by simp)
    have : ∀ i : Fin d, (MeasureTheory.volume (Set.Ioo ((box p).1 i - (box p).2) ((box p).1 i + (box p).2))).toReal
        = 2 * (box p).2 := by
      intro i
      rw [Real.volume_Ioo, ENNReal.toReal_ofReal (by linarith)]
      ring
    simp only [this, Finset.prod_const, Finset.card_univ, Fintype.card_fin]
    field_simp

end TPTree
end Verif
