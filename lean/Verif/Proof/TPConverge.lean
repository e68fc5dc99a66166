import Verif.Proof.TPPotential
import Verif.Proof.TPRiemann
import Verif.Proof.TPProb
import Mathlib.Algebra.Order.Chebyshev

/-!
The tree pyramid refines everywhere: invariants of a run on a positive target that is bounded away from 0, and the depth
of all leaves after many iterations.
-/

set_option linter.unusedSectionVars false
set_option autoImplicit false

namespace Verif

variable {d : ℕ}

namespace TPTree

/-- All numbers of the list are between `lo` and `hi`. -/
def Between (lo hi : ℝ) (ws : List (XF ℝ)) : Prop :=
  ∃ ys : List ℝ, ws = ys.map XF.fin ∧ ∀ y ∈ ys, lo ≤ y ∧ y ≤ hi

theorem Between.append {lo hi : ℝ} {ws : List (XF ℝ)} (h : Between lo hi ws) {y : ℝ} (h1 : lo ≤ y) (h2 : y ≤ hi) :
    Between lo hi (ws ++ [XF.fin y]) := by
  obtain ⟨ys, rfl, hy⟩ := h
  refine ⟨ys ++ [y], by simp, ?_⟩
  intro z hz
  rcases List.mem_append.1 hz with hz | hz
  · exact hy z hz
  · rw [List.mem_singleton] at hz
    subst hz
    exact ⟨h1, h2⟩

theorem Between.dropLast {lo hi : ℝ} {ws : List (XF ℝ)} (h : Between lo hi ws) : Between lo hi ws.dropLast := by
  obtain ⟨ys, rfl, hy⟩ := h
  exact ⟨ys.dropLast, by simp [List.map_dropLast], fun z hz => hy z (List.mem_of_mem_dropLast hz)⟩

theorem sum_bounds {lo hi : ℝ} : ∀ ys : List ℝ, (∀ y ∈ ys, lo ≤ y ∧ y ≤ hi) →
    lo * ys.length ≤ ys.sum ∧ ys.sum ≤ hi * ys.length
  | [], _ => by simp
  | y :: ys, h => by
    obtain ⟨a, b⟩ := sum_bounds ys fun z hz => h z (by simp [hz])
    obtain ⟨e, f⟩ := h y (by simp)
    simp only [List.sum_cons, List.length_cons, Nat.cast_add, Nat.cast_one]
    constructor <;> nlinarith

theorem Between.mean {lo hi : ℝ} {ws : List (XF ℝ)} (h : Between lo hi ws) (hne : ws ≠ []) :
    ∃ y, ws.sum / XF.fin (ws.length : ℝ) = XF.fin y ∧ lo ≤ y ∧ y ≤ hi := by
  obtain ⟨ys, rfl, hy⟩ := h
  have hl : (0 : ℝ) < ys.length := by
    have : ys ≠ [] := by simpa using hne
    exact_mod_cast List.length_pos_iff.2 this
  obtain ⟨a, b⟩ := sum_bounds ys hy
  refine ⟨ys.sum / ys.length, ?_, ?_, ?_⟩
  · rw [XF.sum_map_fin, List.length_map, XF.fin_div_ne _ _ hl.ne']
  · rw [le_div_iff₀ hl]; exact a
  · rw [div_le_iff₀ hl]; exact b

theorem sq_sum_le (ys : List ℝ) : ys.sum * ys.sum ≤ ys.length * (ys.map fun y => y * y).sum := by
  have := sq_sum_le_card_mul_sum_sq (s := (Finset.univ : Finset (Fin ys.length))) (f := fun i => ys[i])
  rw [Finset.card_univ, Fintype.card_fin] at this
  have e1 : ∑ i : Fin ys.length, ys[i] = ys.sum := by
    rw [← List.sum_ofFn]; congr 1; exact List.ofFn_getElem
  have e2 : ∑ i : Fin ys.length, ys[i] ^ 2 = (ys.map fun y => y * y).sum := by
    rw [← List.sum_ofFn]
    congr 1
    apply List.ext_getElem
    · simp
    · intro i h1 h2
      simp [sq]
  rw [e1, e2, sq] at this
  exact this

/-- With an ESS target above 1 only the number of samples matters. -/
theorem shouldExpand_count {lo hi e : ℝ} (hlo : 0 < lo) (he : 1 ≤ e) {n : TPNode ℝ d} {ws : List (XF ℝ)}
    (hw : n.weightHist = some ws) (h : Between lo hi ws) (hne : ws ≠ []) (nMin : ℕ) :
    shouldExpand n (some e) nMin = .ok (decide (nMin ≤ ws.length)) := by
  obtain ⟨ys, rfl, hy⟩ := h
  have hpos : 0 < (ys.map fun y => y * y).sum := by
    have hne' : ys ≠ [] := by simpa using hne
    apply List.sum_pos
    · intro z hz
      obtain ⟨y, hy', rfl⟩ := List.mem_map.1 hz
      have := (hy y hy').1
      have : 0 < y := by linarith
      positivity
    · simpa using hne'
  unfold shouldExpand
  simp only [hw]
  rw [List.map_map]
  have e1 : ((fun w : XF ℝ => w * w) ∘ XF.fin) = XF.fin ∘ fun y : ℝ => y * y := by
    funext y; simp
  rw [e1, ← List.map_map, XF.sum_map_fin, XF.sum_map_fin, XF.fin_mul, XF.fin_div_ne _ _ hpos.ne', List.length_map]
  by_cases hl : ys.length < nMin
  · rw [if_pos hl]
    simp [hl]
  · rw [if_neg hl, if_neg]
    · simp [not_lt.1 hl]
    · have := sq_sum_le ys
      simp only [XF.ltb, decide_eq_true_eq, not_lt]
      rw [div_le_iff₀ hpos]
      have h0 : (0 : ℝ) ≤ ys.length * (ys.map fun y => y * y).sum := by positivity
      nlinarith

/-- The stored weights and the value of the leaf `p` are within constant factors of what its size suggests. -/
def LeafOK (A B : ℝ) (T : TPTree ℝ d) (p : ℕ) : Prop :=
  ∃ (n : TPNode ℝ d) (ws : List (XF ℝ)) (v : ℝ), T.nodes[p]? = some n ∧ n.weightHist = some ws ∧ ws ≠ [] ∧
    Between (A * (2 * n.radius) ^ d) (B * (2 * n.radius) ^ d) ws ∧ n.value = XF.fin v ∧
    A * (n.radius ^ d * n.radius ^ d) ≤ v ∧ v ≤ B * ((2 * n.radius) ^ d * (2 * n.radius) ^ d)

/-- The cached sample of the leaf `p` is in its box and the cached weight is target times volume, over `s`. -/
def CacheOK (t : Pt ℝ d → ℝ) (s : ℝ) (T : TPTree ℝ d) (p : ℕ) : Prop :=
  ∃ x, T.samples[p]? = some x ∧ x ∈ closedCube (T.box p).1 (T.box p).2 ∧
    T.weights[p]? = some (XF.fin (t x * (2 * (T.box p).2) ^ d / s))

theorem LeafOK.congr {A B : ℝ} {T T' : TPTree ℝ d} {p : ℕ} (h : T'.nodes[p]? = T.nodes[p]?) (hl : LeafOK A B T p) :
    LeafOK A B T' p := by
  obtain ⟨n, ws, v, h1, h2⟩ := hl
  exact ⟨n, ws, v, by rw [h, h1], h2⟩

theorem CacheOK.congr {t : Pt ℝ d → ℝ} {s : ℝ} {T T' : TPTree ℝ d} {p : ℕ} (h0 : T'.box p = T.box p)
    (h1 : T'.samples[p]? = T.samples[p]?) (h2 : T'.weights[p]? = T.weights[p]?) (hl : CacheOK t s T p) :
    CacheOK t s T' p := by
  obtain ⟨x, a, b, c⟩ := hl
  exact ⟨x, by rw [h1, a], by rw [h0]; exact b, by rw [h2, h0]; exact c⟩

theorem box_eq {T : TPTree ℝ d} {p : ℕ} {n : TPNode ℝ d} (h : T.nodes[p]? = some n) : T.box p = (n.center, n.radius) := by
  simp [box, h]

theorem box_congr {T T' : TPTree ℝ d} {p : ℕ} (h : T'.nodes[p]? = T.nodes[p]?) : T'.box p = T.box p := by
  unfold box; rw [h]

/-- The constants fit the target on the root cube. -/
structure Consts (t : Pt ℝ d → ℝ) (c : Pt ℝ d) (R A B m M : ℝ) : Prop where
  R0 : 0 < R
  m0 : 0 < m
  tm : ∀ x ∈ closedCube c R, m ≤ t x ∧ t x ≤ M
  mM : m ≤ M
  A0 : 0 < A
  Am : A ≤ m
  MB : M ≤ B
  Am' : A ≤ m / (M * (2 * R) ^ d)
  MB' : M / (m * (2 * R) ^ d) ≤ B

theorem exists_consts {t : Pt ℝ d → ℝ} {c : Pt ℝ d} {R : ℝ} (hR : 0 < R) (ht : ContinuousOn t (closedCube c R))
    (hpos : ∀ x ∈ closedCube c R, 0 < t x) : ∃ A B m M, Consts t c R A B m M := by
  have hcomp : IsCompact (closedCube c R) := isCompact_Icc
  have hne : (closedCube c R).Nonempty := ⟨c, mem_closedCube.2 fun i => ⟨by linarith, by linarith⟩⟩
  obtain ⟨x, hx, hmin⟩ := hcomp.exists_isMinOn hne ht
  obtain ⟨y, hy, hmax⟩ := hcomp.exists_isMaxOn hne ht
  have hm := hpos x hx
  have hmM : t x ≤ t y := hmin hy
  have hM : 0 < t y := hm.trans_le hmM
  have hV : 0 < (2 * R) ^ d := by positivity
  exact ⟨min (t x) (t x / (t y * (2 * R) ^ d)), max (t y) (t y / (t x * (2 * R) ^ d)), t x, t y, hR, hm,
    fun z hz => ⟨hmin hz, hmax hz⟩, hmM, lt_min hm (by positivity), min_le_left _ _, le_max_left _ _, min_le_right _ _,
    le_max_right _ _⟩

theorem Reached.box_cube {c : Pt ℝ d} {R : ℝ} {T : TPTree ℝ d} {e : ℕ} (r : Reached c R T e) (hR : 0 < R) {p : ℕ}
    (hp : p ∈ T.leaves) : 0 < (T.box p).2 ∧ closedCube (T.box p).1 (T.box p).2 ⊆ closedCube c R := by
  have hb : T.box p ∈ T.leafBoxes := List.mem_map.2 ⟨p, hp, rfl⟩
  constructor
  · obtain ⟨k, hk⟩ := (r.tiles hR.le).radii _ hb
    rw [hk]; positivity
  · intro x hx
    exact mem_closedCube.2 ((r.tiles hR.le).sub _ hb x (mem_closedCube.1 hx))

theorem weight_eq (t : Pt ℝ d → ℝ) (n : TPNode ℝ d) (hr : 0 < n.radius) (u : Pt ℝ d) (hu : ∀ i, 0 < u i ∧ u i < 1) :
    XF.fin (t (n.sampler.sample1 u)) / n.sampler.prob1 (n.sampler.sample1 u)
      = XF.fin (t (n.sampler.sample1 u) * (2 * n.radius) ^ d) := by
  rw [sampler_prob1, if_pos]
  · have hp : (2 * n.radius) ^ d ≠ 0 := by positivity
    rw [XF.fin_div_ne _ _ hp, XF.fin_div_ne _ _ (by positivity)]
    simp
  · intro i
    simp only [Uniform.sample1, TPNode.sampler]
    have := hu i
    constructor <;> nlinarith

theorem sample1_cube (n : TPNode ℝ d) (hr : 0 < n.radius) (u : Pt ℝ d) (hu : ∀ i, 0 < u i ∧ u i < 1) :
    n.sampler.sample1 u ∈ closedCube n.center n.radius := by
  rw [mem_closedCube]
  intro i
  have := sampler_sample1 n hr u (fun i => ⟨(hu i).1.le, (hu i).2⟩) i
  exact ⟨this.1, this.2.le⟩

/-- A node that is sampled and weighed once more. -/
theorem weigh_ok {t : Pt ℝ d → ℝ} {c : Pt ℝ d} {R A B m M : ℝ} (k : Consts t c R A B m M) {n : TPNode ℝ d}
    (hr : 0 < n.radius) (hsub : closedCube n.center n.radius ⊆ closedCube c R) {u : Pt ℝ d} (hu : ∀ i, 0 < u i ∧ u i < 1)
    (hws : Between (A * (2 * n.radius) ^ d) (B * (2 * n.radius) ^ d) (n.weightHist.getD [])) :
    let n' := (n.sample (n.sampler.sample1 u)).weigh (fun x => XF.fin (t x)) n.sampler.prob1
    ∃ ws v, n'.weightHist = some ws ∧ ws ≠ [] ∧
      Between (A * (2 * n.radius) ^ d) (B * (2 * n.radius) ^ d) ws ∧ n'.value = XF.fin v ∧
      A * (n.radius ^ d * n.radius ^ d) ≤ v ∧ v ≤ B * ((2 * n.radius) ^ d * (2 * n.radius) ^ d) := by
  intro n'
  have hx := sample1_cube n hr u hu
  obtain ⟨h1, h2⟩ := k.tm _ (hsub hx)
  have hV : 0 < (2 * n.radius) ^ d := by positivity
  have hw := weight_eq t n hr u hu
  have hb := hws.append (y := t (n.sampler.sample1 u) * (2 * n.radius) ^ d)
    (mul_le_mul_of_nonneg_right (k.Am.trans h1) hV.le) (mul_le_mul_of_nonneg_right (h2.trans k.MB) hV.le)
  obtain ⟨y, hy, hy1, hy2⟩ := hb.mean (by simp)
  have hn' : n'.weightHist = some (n.weightHist.getD [] ++ [XF.fin (t (n.sampler.sample1 u) * (2 * n.radius) ^ d)]) := by
    show some (n.weightHist.getD [] ++ [XF.fin (t (n.sampler.sample1 u)) / n.sampler.prob1 (n.sampler.sample1 u)]) = _
    rw [hw]
  refine ⟨_, y * n.radius ^ d, hn', by simp, hb, ?_, ?_, ?_⟩
  · show ((n.weightHist.getD [] ++ [XF.fin (t (n.sampler.sample1 u)) / n.sampler.prob1 (n.sampler.sample1 u)]).sum /
      XF.fin (((n.weightHist.getD [] ++ [XF.fin (t (n.sampler.sample1 u)) / n.sampler.prob1 (n.sampler.sample1 u)]).length : ℕ) : ℝ)) *
      XF.fin (n.radius ^ d) = _
    rw [hw, hy]; simp
  · have hrd : 0 < n.radius ^ d := by positivity
    have h2d : n.radius ^ d ≤ (2 * n.radius) ^ d := pow_le_pow_left₀ hr.le (by linarith) d
    calc A * (n.radius ^ d * n.radius ^ d) ≤ A * ((2 * n.radius) ^ d * n.radius ^ d) :=
          mul_le_mul_of_nonneg_left (mul_le_mul_of_nonneg_right h2d hrd.le) k.A0.le
      _ = A * (2 * n.radius) ^ d * n.radius ^ d := by ring
      _ ≤ y * n.radius ^ d := mul_le_mul_of_nonneg_right hy1 hrd.le
  · have hrd : 0 < n.radius ^ d := by positivity
    have h2d : n.radius ^ d ≤ (2 * n.radius) ^ d := pow_le_pow_left₀ hr.le (by linarith) d
    have hB : 0 < B := k.m0.trans_le (k.mM.trans k.MB)
    calc y * n.radius ^ d ≤ B * (2 * n.radius) ^ d * n.radius ^ d := mul_le_mul_of_nonneg_right hy2 hrd.le
      _ ≤ B * (2 * n.radius) ^ d * (2 * n.radius) ^ d := mul_le_mul_of_nonneg_left h2d (by positivity)
      _ = _ := by ring

end TPTree

namespace TPSampler

open TPTree

theorem visit_ok {t : Pt ℝ d → ℝ} {c : Pt ℝ d} {R A B m M : ℝ} (k : Consts t c R A B m M) {S S' : TPSampler ℝ d} {e : ℕ}
    (r : Reached c R S.T e) {draw : ℕ → Pt ℝ d} (hu : ∀ p i, 0 < draw p i ∧ draw p i < 1) {p : ℕ} (hp : p ∈ S.T.leaves)
    (hl : LeafOK A B S.T p ∨ Fresh S.T p) (h : visit (fun x => XF.fin (t x)) draw S p = .ok S') :
    LeafOK A B S'.T p ∧ CacheOK t 1 S'.T p := by
  obtain ⟨n, hn, hs, h1, h2, h3, _⟩ := visit_full r.wf h
  have hb := box_eq hn
  obtain ⟨hr, hsub⟩ := r.box_cube k.R0 hp
  rw [hb] at hr hsub
  have hws : Between (A * (2 * n.radius) ^ d) (B * (2 * n.radius) ^ d) (n.weightHist.getD []) := by
    rcases hl with ⟨n', ws, v, g1, g2, _, g3, _⟩ | ⟨n', g1, _, g2⟩
    · rw [hn] at g1
      obtain rfl := Option.some.inj g1
      rw [g2]; exact g3
    · rw [hn] at g1
      obtain rfl := Option.some.inj g1
      rw [g2]; exact ⟨[], rfl, by simp⟩
  obtain ⟨ws, v, g1, g2, g3, g4, g5, g6⟩ := weigh_ok k hr hsub (hu p) hws
  refine ⟨⟨_, ws, v, h1, g1, g2, g3, g4, g5, g6⟩, _, h2, ?_, ?_⟩
  · rw [hs.box, hb]
    exact sample1_cube n hr _ (hu p)
  · rw [h3, weight_eq t n hr _ (hu p), hs.box, hb, div_one]

theorem visits_ok {t : Pt ℝ d → ℝ} {c : Pt ℝ d} {R A B m M : ℝ} (k : Consts t c R A B m M) {draw : ℕ → Pt ℝ d}
    (hu : ∀ p i, 0 < draw p i ∧ draw p i < 1) : ∀ (ps : List ℕ) (S S' : TPSampler ℝ d) (e : ℕ), Reached c R S.T e →
    (∀ p ∈ ps, p ∈ S.T.leaves) → (∀ p ∈ S.T.leaves, LeafOK A B S.T p ∨ (p ∈ ps ∧ Fresh S.T p)) →
    ps.foldlM (visit (fun x => XF.fin (t x)) draw) S = .ok S' →
    ∀ p ∈ S.T.leaves, LeafOK A B S'.T p ∧ (CacheOK t 1 S.T p ∨ p ∈ ps → CacheOK t 1 S'.T p)
  | [], S, S', e, r, hl, hh, h, p, hp => by
    simp only [List.foldlM_nil, pure, Except.pure, Except.ok.injEq] at h
    subst h
    exact ⟨by simpa using hh p hp, by simp⟩
  | q :: ps, S, S', e, r, hl, hh, h, p, hp => by
    simp only [List.foldlM_cons, bind, Except.bind] at h
    cases h1 : visit (fun x => XF.fin (t x)) draw S q with
    | error e => simp [h1] at h
    | ok S1 =>
      rw [h1] at h
      simp only at h
      obtain ⟨n, hn, hs, _, _, _, h4⟩ := visit_full r.wf h1
      have hq := hl q (by simp)
      obtain ⟨a1, a2⟩ := visit_ok k r hu hq ((hh q hq).imp id fun h => h.2) h1
      have hbox : ∀ x, S1.T.box x = S.T.box x := fun x => hs.box x
      have := visits_ok k hu ps S1 S' e (r.same hs) (fun x hx => by rw [hs.leaves]; exact hl x (by simp [hx])) (by
        intro x hx
        rw [hs.leaves] at hx
        by_cases hxq : x = q
        · subst hxq; exact Or.inl a1
        · rcases hh x hx with h5 | ⟨h5, h6⟩
          · exact Or.inl (h5.congr (h4 x hxq).1)
          · right
            refine ⟨(List.mem_cons.1 h5).resolve_left hxq, ?_⟩
            obtain ⟨n', g1, g2⟩ := h6
            exact ⟨n', by rw [(h4 x hxq).1, g1], g2⟩) h p (by rw [hs.leaves]; exact hp)
      refine ⟨this.1, fun h5 => this.2 ?_⟩
      by_cases hpq : p = q
      · subst hpq; exact Or.inl a2
      · rcases h5 with h5 | h5
        · exact Or.inl (h5.congr (hbox p) (h4 p hpq).2.1 (h4 p hpq).2.2)
        · exact Or.inr ((List.mem_cons.1 h5).resolve_left hpq)

end TPSampler
end Verif
