import Verif.Proof.TPConverge
import Verif.Proof.TPCache

/-!
Leaf resampling in a run of the tree pyramid on a positive target.
-/

set_option linter.unusedSectionVars false
set_option autoImplicit false

namespace Verif

variable {d : ℕ}

namespace TPTree

theorem sum_map_bounds {lo hi : ℝ} (f g : ℕ → ℝ) : ∀ l : List ℕ, (∀ p ∈ l, lo * g p ≤ f p ∧ f p ≤ hi * g p) →
    lo * (l.map g).sum ≤ (l.map f).sum ∧ (l.map f).sum ≤ hi * (l.map g).sum
  | [], _ => by simp
  | p :: l, h => by
    obtain ⟨a, b⟩ := sum_map_bounds f g l fun q hq => h q (by simp [hq])
    obtain ⟨c, e⟩ := h p (by simp)
    simp only [List.map_cons, List.sum_cons]
    constructor <;> nlinarith

/-- Total of target times volume over the leaves. -/
theorem Reached.total {t : Pt ℝ d → ℝ} {c : Pt ℝ d} {R A B m M : ℝ} (k : Consts t c R A B m M) {T : TPTree ℝ d} {e : ℕ}
    (r : Reached c R T e) (pt : ℕ → Pt ℝ d) (hpt : ∀ p ∈ T.leaves, pt p ∈ closedCube (T.box p).1 (T.box p).2) :
    m * (2 * R) ^ d ≤ (T.leaves.map fun p => t (pt p) * (2 * (T.box p).2) ^ d).sum ∧
    (T.leaves.map fun p => t (pt p) * (2 * (T.box p).2) ^ d).sum ≤ M * (2 * R) ^ d := by
  have hv := (r.tiles k.R0.le).vol
  unfold leafBoxes at hv
  rw [List.map_map] at hv
  have hv' : (T.leaves.map fun p => (2 * (T.box p).2) ^ d).sum = (2 * R) ^ d := hv
  rw [← hv']
  apply sum_map_bounds
  intro p hp
  obtain ⟨hr, hsub⟩ := r.box_cube k.R0 hp
  obtain ⟨h1, h2⟩ := k.tm _ (hsub (hpt p hp))
  have : 0 < (2 * (T.box p).2) ^ d := by positivity
  constructor <;> nlinarith

/-- Normalising cached weights: the weights are then target times volume over the total. -/
theorem CacheOK.normalize_full {t : Pt ℝ d → ℝ} {c : Pt ℝ d} {R A B m M s : ℝ} (k : Consts t c R A B m M) (hs : 0 < s)
    {T : TPTree ℝ d} {e : ℕ} (r : Reached c R T e) (h : ∀ p ∈ T.leaves, CacheOK t s T p) :
    ∃ pt : ℕ → Pt ℝ d, ∀ p ∈ T.leaves, pt p ∈ closedCube (T.box p).1 (T.box p).2 ∧
      T.selfNormalize.samples[p]? = some (pt p) ∧ T.selfNormalize.weights[p]? = some (XF.fin
        (t (pt p) * (2 * (T.box p).2) ^ d / (T.leaves.map fun p => t (pt p) * (2 * (T.box p).2) ^ d).sum)) := by
  choose! pt h1 h2 h3 using h
  obtain ⟨b1, b2⟩ := r.total k pt h2
  set Q := (T.leaves.map fun p => t (pt p) * (2 * (T.box p).2) ^ d).sum with hQ
  have hV : 0 < (2 * R) ^ d := by have := k.R0; positivity
  have hQ0 : 0 < Q := lt_of_lt_of_le (mul_pos k.m0 hV) b1
  have hsum : (T.leaves.map fun p => t (pt p) * (2 * (T.box p).2) ^ d / s).sum = Q / s := by
    rw [hQ, div_eq_mul_inv, ← List.sum_map_mul_right]
    simp only [div_eq_mul_inv]
  have hw := selfNormalize_weights r.wf (fun p => t (pt p) * (2 * (T.box p).2) ^ d / s) h3 (by rw [hsum]; positivity)
  refine ⟨pt, ?_⟩
  intro p hp
  have hsam : T.selfNormalize.samples = T.samples := by
    unfold selfNormalize
    simp only
    split_ifs <;> rfl
  refine ⟨h2 p hp, by rw [hsam]; exact h1 p hp, ?_⟩
  rw [hw p hp, hsum, ← hQ]
  congr 2
  field_simp

/-- Normalising cached weights: the common divisor changes. -/
theorem CacheOK.normalize {t : Pt ℝ d → ℝ} {c : Pt ℝ d} {R A B m M s : ℝ} (k : Consts t c R A B m M) (hs : 0 < s)
    {T : TPTree ℝ d} {e : ℕ} (r : Reached c R T e) (h : ∀ p ∈ T.leaves, CacheOK t s T p) :
    ∃ s', m * (2 * R) ^ d ≤ s' ∧ s' ≤ M * (2 * R) ^ d ∧ ∀ p ∈ T.selfNormalize.leaves, CacheOK t s' T.selfNormalize p := by
  obtain ⟨pt, hpt⟩ := CacheOK.normalize_full k hs r h
  obtain ⟨b1, b2⟩ := r.total k pt fun p hp => (hpt p hp).1
  have same := selfNormalize_same r.wf
  refine ⟨_, b1, b2, ?_⟩
  intro p hp
  rw [same.leaves] at hp
  obtain ⟨h1, h2, h3⟩ := hpt p hp
  exact ⟨pt p, h2, by rw [same.box]; exact h1, by rw [h3, same.box]⟩

theorem resample_ok {t : Pt ℝ d → ℝ} {c : Pt ℝ d} {R A B m M : ℝ} (k : Consts t c R A B m M) {T T' : TPTree ℝ d} {e : ℕ}
    (r : Reached c R T e) {u : ℕ → Pt ℝ d} (hu : ∀ p i, 0 < u p i ∧ u p i < 1) (hl : ∀ p ∈ T.leaves, LeafOK A B T p)
    (h : T.resample (fun x => XF.fin (t x)) u = .ok T') :
    (∀ p ∈ T'.leaves, LeafOK A B T' p) ∧ (∃ s > 0, ∀ p ∈ T'.leaves, CacheOK t s T' p) ∧
    ∀ L m', pot L m' T' = pot L m' T := by
  have I := r.wf
  set T1 := T.resampleArrays (fun x => XF.fin (t x)) u with hT1
  have s1 : Same T T1 := resampleArrays_same I _ u
  have r1 := r.same s1
  have s2 := selfNormalize_same r1.wf
  have hsame := resample_same I h
  have c1 : ∀ p ∈ T1.leaves, CacheOK t 1 T1 p := by
    intro p hp
    rw [s1.leaves] at hp
    obtain ⟨a, b⟩ := resampleArrays_at (fun x => XF.fin (t x)) I u hp
    obtain ⟨hr, _⟩ := r.box_cube k.R0 hp
    have hin := reSample_inbox (T.box p).1 (T.box p).2 hr (u p) (fun i => ⟨(hu p i).1.le, (hu p i).2⟩)
    refine ⟨_, a, ?_, ?_⟩
    · rw [s1.box]
      exact mem_closedCube.2 fun i => ⟨(hin i).1, (hin i).2.le⟩
    · have hp' : (2 * (T.box p).2) ^ d ≠ 0 := by positivity
      rw [b, XF.fin_div_ne _ _ hp', XF.fin_div_ne _ _ (by positivity), s1.box]
      simp
  obtain ⟨s, hs1, hs2, hc⟩ := CacheOK.normalize k one_pos r1 c1
  have hV : 0 < (2 * R) ^ d := by have := k.R0; positivity
  have hs0 : 0 < s := lt_of_lt_of_le (mul_pos k.m0 hV) hs1
  unfold resample at h
  simp only [← hT1] at h
  have hlv : T1.selfNormalize.leaves = T.leaves := by rw [s2.leaves, s1.leaves]
  have hnodes : T1.selfNormalize.nodes = T.nodes := by rw [selfNormalize_nodes]; rfl
  obtain ⟨f1, f2, f3, f4⟩ := refresh_fold _ _ T' (s2.inv r1.wf) (by rw [hlv]; exact I.leavesNodup) h
  rw [hlv] at f4
  have hboxT : ∀ p, T'.box p = T.box p := fun p => hsame.box p
  refine ⟨?_, ⟨s, hs0, ?_⟩, ?_⟩
  · intro p hp
    rw [hsame.leaves] at hp
    obtain ⟨n, w, ws, n', g1, g2, g3, g4, g5, g6, g7, g8, g9⟩ := f4 p hp
    rw [hnodes] at g1
    obtain ⟨n0, ws0, v0, e1, e2, e3, e4, _⟩ := hl p hp
    rw [g1] at e1
    obtain rfl := Option.some.inj e1
    rw [g3] at e2
    obtain rfl := Option.some.inj e2
    obtain ⟨x, hx1, hx2, hx3⟩ := hc p (by rw [hlv]; exact hp)
    rw [g2, s2.box, s1.box] at hx3
    rw [s2.box, s1.box] at hx2
    obtain rfl := Option.some.inj hx3
    obtain ⟨hr, hsub⟩ := r.box_cube k.R0 hp
    obtain ⟨t1, t2⟩ := k.tm _ (hsub hx2)
    have hb := box_eq g1
    rw [hb] at hr g8 g9
    simp only at hr g8 g9
    have hV' : 0 < (2 * n.radius) ^ d := by positivity
    have hM : 0 < M := k.m0.trans_le k.mM
    have hB : 0 < B := hM.trans_le k.MB
    have hlo : A * (2 * n.radius) ^ d ≤ t x * (2 * n.radius) ^ d / s := by
      rw [le_div_iff₀ hs0]
      have h1 : A * s ≤ t x := by
        have := k.Am'
        rw [le_div_iff₀ (mul_pos hM hV)] at this
        calc A * s ≤ A * (M * (2 * R) ^ d) := mul_le_mul_of_nonneg_left hs2 k.A0.le
          _ ≤ m := this
          _ ≤ t x := t1
      nlinarith
    have hhi : t x * (2 * n.radius) ^ d / s ≤ B * (2 * n.radius) ^ d := by
      rw [div_le_iff₀ hs0]
      have h1 : t x ≤ B * s := by
        have := k.MB'
        rw [div_le_iff₀ (mul_pos k.m0 hV)] at this
        calc t x ≤ M := t2
          _ ≤ B * (m * (2 * R) ^ d) := this
          _ ≤ B * s := mul_le_mul_of_nonneg_left hs1 hB.le
      nlinarith
    refine ⟨n', _, t x * (2 * n.radius) ^ d / s * (2 * n.radius) ^ d, g5, g8, by simp, ?_, by rw [g9]; simp, ?_, ?_⟩
    · rw [g6]
      exact e4.dropLast.append hlo hhi
    · rw [g6]
      have h2d : n.radius ^ d ≤ (2 * n.radius) ^ d := pow_le_pow_left₀ hr.le (by linarith) d
      have hrd : 0 < n.radius ^ d := by positivity
      calc A * (n.radius ^ d * n.radius ^ d) ≤ A * ((2 * n.radius) ^ d * (2 * n.radius) ^ d) :=
            mul_le_mul_of_nonneg_left (mul_le_mul h2d h2d hrd.le hV'.le) k.A0.le
        _ = A * (2 * n.radius) ^ d * (2 * n.radius) ^ d := by ring
        _ ≤ _ := mul_le_mul_of_nonneg_right hlo hV'.le
    · rw [g6]
      calc _ ≤ B * (2 * n.radius) ^ d * (2 * n.radius) ^ d := mul_le_mul_of_nonneg_right hhi hV'.le
        _ = _ := by ring
  · intro p hp
    rw [hsame.leaves] at hp
    refine (hc p (by rw [hlv]; exact hp)).congr ?_ (by rw [f2]) (by rw [f1])
    rw [hboxT, s2.box, s1.box]
  · intro L m'
    unfold pot
    rw [hsame.leaves]
    apply Finset.sum_congr rfl
    intro p hp
    obtain ⟨n, w, ws, n', g1, g2, g3, g4, g5, g6, g7, g8, g9⟩ := f4 p (List.mem_toFinset.1 hp)
    rw [hnodes] at g1
    rw [g1, g5, work_some, work_some, g7, g8, g3]
    simp only [Option.getD_some, List.length_append, List.length_dropLast, List.length_singleton]
    have : 0 < ws.length := List.length_pos_iff.2 g4
    rw [Nat.sub_add_cancel this]

end TPTree
end Verif
