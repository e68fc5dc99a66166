import Verif.Proof.TPPotential
import Verif.Proof.TPProb
import Verif.Proof.TPMixture
import Verif.Proof.TPMixFirst
import Verif.Spec.TPWeights

/-!
The cached samples and weights of the tree pyramid: weight = target times cell volume, up to a common factor.
-/

set_option linter.unusedSectionVars false
set_option autoImplicit false

namespace Verif

variable {K : Type*} [Field K] [LinearOrder K] [IsStrictOrderedRing K] {d : ℕ}

theorem zipWith_maskSelect {α β γ : Type*} (g : α → β → γ) : ∀ (m : List Bool) (a : List α) (b : List β),
    a.length = b.length → List.zipWith g (maskSelect m a) (maskSelect m b) = maskSelect m (List.zipWith g a b)
  | [], a, b, _ => by simp [maskSelect]
  | c :: m, [], [], _ => by simp [maskSelect]
  | c :: m, [], _ :: _, h => by simp at h
  | c :: m, _ :: _, [], h => by simp at h
  | c :: m, x :: a, y :: b, h => by
    cases c <;> simp [maskSelect, zipWith_maskSelect g m a b (by simpa using h)]

theorem maskSelect_mapped {α β : Type*} (g : α → β) : ∀ (m : List Bool) (a : List α),
    maskSelect m (a.map g) = (maskSelect m a).map g
  | [], a => by simp [maskSelect]
  | c :: m, [] => by simp [maskSelect]
  | c :: m, x :: a => by
    cases c <;> simp [maskSelect, maskSelect_mapped g m a]

theorem maskSelect_congr {α : Type*} (m : List Bool) (a b : List α) (hl : a.length = b.length)
    (h : ∀ i : ℕ, m[i]? = some true → a[i]? = b[i]?) : maskSelect m a = maskSelect m b := by
  rw [TPTree.maskSelect_eq, TPTree.maskSelect_eq, hl]
  apply List.filterMap_congr
  intro i _
  split_ifs with hi
  · exact h i hi
  · rfl

namespace TPTree

theorem resampleArrays_at (target : Pt K d → XF K) {T : TPTree K d} (I : WF T) (u : ℕ → Pt K d) {p : ℕ}
    (hp : p ∈ T.leaves) :
    (T.resampleArrays target u).samples[p]? = some (reSample (u p) (T.box p).1 (T.box p).2) ∧
    (T.resampleArrays target u).weights[p]? = some (target (reSample (u p) (T.box p).1 (T.box p).2) /
      (XF.fin 1 / XF.fin ((2 * (T.box p).2) ^ d))) := by
  obtain ⟨n, h1, _⟩ := I.leaf_node hp
  have hpN : p < T.nodes.length := (List.getElem?_eq_some_iff.1 h1).1
  have hb : T.box p = (n.center, n.radius) := by simp [box, h1]
  have hm := (I.mask_iff p).2 hp
  have hpts : ((T.centers.zip T.radii).zipIdx.map fun (a : (Pt K d × K) × ℕ) =>
      match a with | ((c, r), i) => (reSample (u i) c r, r))[p]? = some (reSample (u p) n.center n.radius, n.radius) := by
    have hc : (T.centers.zip T.radii)[p]? = some (n.center, n.radius) := by
      rw [List.getElem?_zip_eq_some, I.centers, I.radii, List.getElem?_map, List.getElem?_map, h1]
      simp
    rw [List.getElem?_map, List.getElem?_zipIdx, hc]
    simp
  obtain ⟨s, hs⟩ : ∃ s, T.samples[p]? = some s := ⟨_, List.getElem?_eq_getElem (by rw [I.lenS]; exact hpN)⟩
  obtain ⟨w, hw⟩ : ∃ s, T.weights[p]? = some s := ⟨_, List.getElem?_eq_getElem (by rw [I.lenW]; exact hpN)⟩
  rw [hb]
  constructor
  · simp only [resampleArrays, List.getElem?_map]
    have : ((T.samples.zip ((T.centers.zip T.radii).zipIdx.map fun (a : (Pt K d × K) × ℕ) =>
      match a with | ((c, r), i) => (reSample (u i) c r, r))).zip T.leavesIdx)[p]?
        = some ((s, (reSample (u p) n.center n.radius, n.radius)), true) := by
      rw [List.getElem?_zip_eq_some, List.getElem?_zip_eq_some]
      exact ⟨⟨hs, hpts⟩, hm⟩
    rw [this]
    simp
  · simp only [resampleArrays, List.getElem?_map]
    have : ((T.weights.zip ((T.centers.zip T.radii).zipIdx.map fun (a : (Pt K d × K) × ℕ) =>
      match a with | ((c, r), i) => (reSample (u i) c r, r))).zip T.leavesIdx)[p]?
        = some ((w, (reSample (u p) n.center n.radius, n.radius)), true) := by
      rw [List.getElem?_zip_eq_some, List.getElem?_zip_eq_some]
      exact ⟨⟨hw, hpts⟩, hm⟩
    rw [this]
    simp

/-- The leaf after taking over the resampled weight. -/
theorem refreshLeaf_full {T T' : TPTree K d} (I : WF T) {p : ℕ} (h : T.refreshLeaf p = .ok T') :
    T'.weights = T.weights ∧ T'.samples = T.samples ∧ (∀ q, q ≠ p → T'.nodes[q]? = T.nodes[q]?) ∧
    ∃ n w ws n', T.nodes[p]? = some n ∧ T.weights[p]? = some w ∧ n.weightHist = some ws ∧ ws ≠ [] ∧
      T'.nodes[p]? = some n' ∧ n'.radius = n.radius ∧ n'.level = n.level ∧ n'.weightHist = some (ws.dropLast ++ [w]) ∧
      n'.value = w * XF.fin ((2 * n.radius) ^ d) := by
  unfold refreshLeaf at h
  split at h
  · cases h
  · rename_i n hn
    have hpN : p < T.nodes.length := (List.getElem?_eq_some_iff.1 hn).1
    have hni := I.idx p n hn
    split at h
    · rename_i w x hw hx
      split at h
      · rename_i wh ch hwh hch
        simp only [Except.ok.injEq] at h
        subst h
        rw [hni] at hw
        refine ⟨rfl, rfl, ?_, ?_⟩
        · intro q hq
          simp only
          rw [List.getElem?_set_ne (fun h => hq h.symm)]
        · cases hws : n.weightHist with
          | none => rw [hws] at hwh; simp at hwh
          | some ws =>
            rw [hws] at hwh
            simp only [Option.bind_some, setLast] at hwh
            split_ifs at hwh with hne
            simp only [Option.some.injEq] at hwh
            subst hwh
            exact ⟨n, w, ws, _, hn, hw, hws, hne, List.getElem?_set_self hpN, rfl, rfl, rfl, rfl⟩
      · cases h
    · cases h

theorem refresh_fold : ∀ (l : List ℕ) (T T' : TPTree K d), WF T → l.Nodup → l.foldlM refreshLeaf T = .ok T' →
    T'.weights = T.weights ∧ T'.samples = T.samples ∧ (∀ q, q ∉ l → T'.nodes[q]? = T.nodes[q]?) ∧
    ∀ p ∈ l, ∃ n w ws n', T.nodes[p]? = some n ∧ T.weights[p]? = some w ∧ n.weightHist = some ws ∧ ws ≠ [] ∧
      T'.nodes[p]? = some n' ∧ n'.radius = n.radius ∧ n'.level = n.level ∧ n'.weightHist = some (ws.dropLast ++ [w]) ∧
      n'.value = w * XF.fin ((2 * n.radius) ^ d)
  | [], T, T', I, hnd, h => by
    simp only [List.foldlM_nil, pure, Except.pure, Except.ok.injEq] at h
    subst h
    exact ⟨rfl, rfl, fun _ _ => rfl, by simp⟩
  | p :: l, T, T', I, hnd, h => by
    rw [List.nodup_cons] at hnd
    simp only [List.foldlM_cons, bind, Except.bind] at h
    cases h1 : T.refreshLeaf p with
    | error e => simp [h1] at h
    | ok T1 =>
      rw [h1] at h
      simp only at h
      obtain ⟨a1, a2, a3, n, w, ws, n', b1, b2, b3, b4, b5, b6⟩ := refreshLeaf_full I h1
      obtain ⟨c1, c2, c3, c4⟩ := refresh_fold l T1 T' ((refreshLeaf_same h1).inv I) hnd.2 h
      refine ⟨c1.trans a1, c2.trans a2, ?_, ?_⟩
      · intro q hq
        simp only [List.mem_cons, not_or] at hq
        rw [c3 q hq.2, a3 q hq.1]
      · intro q hq
        by_cases hqp : q = p
        · subst hqp
          exact ⟨n, w, ws, n', b1, b2, b3, b4, by rw [c3 q hnd.1, b5], b6⟩
        · obtain ⟨n1, w1, ws1, n1', g1, g2, g3⟩ := c4 q ((List.mem_cons.1 hq).resolve_left hqp)
          exact ⟨n1, w1, ws1, n1', by rw [← a3 q hqp, g1], by rw [← a1, g2], g3⟩

/-- The cached sample of the leaf `p` is in its box and the cached weight is target times volume, over `s`. -/
def Cached (t : Pt K d → K) (s : K) (T : TPTree K d) (p : ℕ) : Prop :=
  ∃ x, T.samples[p]? = some x ∧ (∀ i, (T.box p).1 i - (T.box p).2 ≤ x i ∧ x i ≤ (T.box p).1 i + (T.box p).2) ∧
    T.weights[p]? = some (XF.fin (t x * (2 * (T.box p).2) ^ d / s))

theorem Cached.congr {t : Pt K d → K} {s : K} {T T' : TPTree K d} {p : ℕ} (h0 : T'.box p = T.box p)
    (h1 : T'.samples[p]? = T.samples[p]?) (h2 : T'.weights[p]? = T.weights[p]?) (hl : Cached t s T p) :
    Cached t s T' p := by
  obtain ⟨x, a, b, c⟩ := hl
  exact ⟨x, by rw [h1, a], by rw [h0]; exact b, by rw [h2, h0]; exact c⟩

theorem box_node {T : TPTree K d} {p : ℕ} {n : TPNode K d} (h : T.nodes[p]? = some n) : T.box p = (n.center, n.radius) := by
  simp [box, h]

theorem weight_open (t : Pt K d → K) (n : TPNode K d) (hr : 0 < n.radius) (u : Pt K d) (hu : ∀ i, 0 < u i ∧ u i < 1) :
    XF.fin (t (n.sampler.sample1 u)) / n.sampler.prob1 (n.sampler.sample1 u)
      = XF.fin (t (n.sampler.sample1 u) * (2 * n.radius) ^ d) := by
  rw [sampler_prob1, if_pos]
  · have hp : (2 * n.radius) ^ d ≠ 0 := by positivity
    rw [XF.fin_div_ne _ _ hp, XF.fin_div_ne _ _ (by positivity)]
    simp
  · intro i
    simp only [Uniform.sample1, TPNode.sampler]
    have := hu i
    constructor <;> nlinarith

/-- Normalising the cached weights. -/
theorem Cached.normalize_full {t : Pt K d → K} {c : Pt K d} {R s : K} (hR : 0 < R) (hs : 0 < s) (ht : ∀ x, 0 ≤ t x)
    {T : TPTree K d} {e : ℕ} (r : Reached c R T e) (h : ∀ p ∈ T.leaves, Cached t s T p) :
    ∃ pt : ℕ → Pt K d, ∀ p ∈ T.leaves,
      (∀ i, (T.box p).1 i - (T.box p).2 ≤ pt p i ∧ pt p i ≤ (T.box p).1 i + (T.box p).2) ∧
      T.selfNormalize.samples[p]? = some (pt p) ∧ T.selfNormalize.weights[p]? = some (XF.fin
        (t (pt p) * (2 * (T.box p).2) ^ d / (T.leaves.map fun p => t (pt p) * (2 * (T.box p).2) ^ d).sum)) := by
  choose! pt h1 h2 h3 using h
  have hnn : ∀ p ∈ T.leaves, 0 ≤ t (pt p) * (2 * (T.box p).2) ^ d := fun p hp => by
    have := r.box_pos hR hp
    have := ht (pt p)
    positivity
  set Q := (T.leaves.map fun p => t (pt p) * (2 * (T.box p).2) ^ d).sum with hQ
  have hQ0 : 0 ≤ Q := List.sum_nonneg (by
    intro x hx
    obtain ⟨p, hp, rfl⟩ := List.mem_map.1 hx
    exact hnn p hp)
  have hsum : (T.leaves.map fun p => t (pt p) * (2 * (T.box p).2) ^ d / s).sum = Q / s := by
    rw [hQ, div_eq_mul_inv, ← List.sum_map_mul_right]
    simp only [div_eq_mul_inv]
  have hsam : T.selfNormalize.samples = T.samples := by
    unfold selfNormalize
    simp only
    split_ifs <;> rfl
  refine ⟨pt, fun p hp => ⟨h2 p hp, by rw [hsam]; exact h1 p hp, ?_⟩⟩
  rcases hQ0.lt_or_eq with hpos | hzero
  · have hw := selfNormalize_weights r.wf (fun p => t (pt p) * (2 * (T.box p).2) ^ d / s) h3 (by rw [hsum]; positivity)
    rw [hw p hp, hsum]
    rw [div_div_div_cancel_right₀ hs.ne']
  · have hms : (maskSelect T.leavesIdx T.weights).sum = XF.fin 0 := by
      rw [(r.wf.maskSelect_perm T.weights r.wf.lenW (fun p => XF.fin (t (pt p) * (2 * (T.box p).2) ^ d / s)) h3).sum_eq]
      have := XF.sum_map_fin (T.leaves.map fun p => t (pt p) * (2 * (T.box p).2) ^ d / s)
      rw [List.map_map, hsum, ← hzero, zero_div] at this
      exact this
    have hself : T.selfNormalize = T := by
      unfold selfNormalize
      simp only [hms]
      rw [if_neg (by simp [XF.ltb])]
    have h0 : t (pt p) * (2 * (T.box p).2) ^ d = 0 := by
      have := List.single_le_sum (l := T.leaves.map fun p => t (pt p) * (2 * (T.box p).2) ^ d) (by
        intro x hx
        obtain ⟨p, hp, rfl⟩ := List.mem_map.1 hx
        exact hnn p hp) _ (List.mem_map.2 ⟨p, hp, rfl⟩)
      rw [← hQ, ← hzero] at this
      exact le_antisymm this (hnn p hp)
    rw [hself, h3 p hp, h0, zero_div, zero_div]

theorem Cached.normalize {t : Pt K d → K} {c : Pt K d} {R s : K} (hR : 0 < R) (hs : 0 < s) (ht : ∀ x, 0 ≤ t x)
    {T : TPTree K d} {e : ℕ} (r : Reached c R T e) (h : ∀ p ∈ T.leaves, Cached t s T p) :
    ∃ s' > 0, ∀ p ∈ T.selfNormalize.leaves, Cached t s' T.selfNormalize p := by
  obtain ⟨pt, hpt⟩ := Cached.normalize_full hR hs ht r h
  have same := selfNormalize_same r.wf
  have hnn : ∀ p ∈ T.leaves, 0 ≤ t (pt p) * (2 * (T.box p).2) ^ d := fun p hp => by
    have := r.box_pos hR hp
    have := ht (pt p)
    positivity
  have hQ0 : 0 ≤ (T.leaves.map fun p => t (pt p) * (2 * (T.box p).2) ^ d).sum := List.sum_nonneg (by
    intro x hx
    obtain ⟨p, hp, rfl⟩ := List.mem_map.1 hx
    exact hnn p hp)
  rcases hQ0.lt_or_eq with hpos | hzero
  · refine ⟨_, hpos, fun p hp => ?_⟩
    rw [same.leaves] at hp
    obtain ⟨h1, h2, h3⟩ := hpt p hp
    exact ⟨pt p, h2, by rw [same.box]; exact h1, by rw [h3, same.box]⟩
  · refine ⟨1, one_pos, fun p hp => ?_⟩
    rw [same.leaves] at hp
    obtain ⟨h1, h2, h3⟩ := hpt p hp
    refine ⟨pt p, h2, by rw [same.box]; exact h1, ?_⟩
    have h0 : t (pt p) * (2 * (T.box p).2) ^ d = 0 := by
      have := List.single_le_sum (l := T.leaves.map fun p => t (pt p) * (2 * (T.box p).2) ^ d) (by
        intro x hx
        obtain ⟨p, hp, rfl⟩ := List.mem_map.1 hx
        exact hnn p hp) _ (List.mem_map.2 ⟨p, hp, rfl⟩)
      rw [← hzero] at this
      exact le_antisymm this (hnn p hp)
    rw [h3, same.box, h0, zero_div, zero_div]

theorem resample_cached {t : Pt K d → K} {c : Pt K d} {R : K} (hR : 0 < R) (ht : ∀ x, 0 ≤ t x) {T T' : TPTree K d} {e : ℕ}
    (r : Reached c R T e) {u : ℕ → Pt K d} (hu : ∀ p i, 0 < u p i ∧ u p i < 1)
    (h : T.resample (fun x => XF.fin (t x)) u = .ok T') : ∃ s > 0, ∀ p ∈ T'.leaves, Cached t s T' p := by
  have I := r.wf
  set T1 := T.resampleArrays (fun x => XF.fin (t x)) u with hT1
  have s1 : Same T T1 := resampleArrays_same I _ u
  have r1 := r.same s1
  have s2 := selfNormalize_same r1.wf
  have hsame := resample_same I h
  have c1 : ∀ p ∈ T1.leaves, Cached t 1 T1 p := by
    intro p hp
    rw [s1.leaves] at hp
    obtain ⟨a, b⟩ := resampleArrays_at (fun x => XF.fin (t x)) I u hp
    have hr := r.box_pos hR hp
    have hin := reSample_inbox (T.box p).1 (T.box p).2 hr (u p) (fun i => ⟨(hu p i).1.le, (hu p i).2⟩)
    refine ⟨_, a, ?_, ?_⟩
    · rw [s1.box]
      exact fun i => ⟨(hin i).1, (hin i).2.le⟩
    · have hp' : (2 * (T.box p).2) ^ d ≠ 0 := by positivity
      rw [b, XF.fin_div_ne _ _ hp', XF.fin_div_ne _ _ (by positivity), s1.box]
      simp
  obtain ⟨s, hs, hc⟩ := Cached.normalize hR one_pos ht r1 c1
  unfold resample at h
  simp only [← hT1] at h
  have hlv : T1.selfNormalize.leaves = T.leaves := by rw [s2.leaves, s1.leaves]
  obtain ⟨f1, f2, _⟩ := refresh_fold _ _ T' (s2.inv r1.wf) (by rw [hlv]; exact I.leavesNodup) h
  refine ⟨s, hs, fun p hp => ?_⟩
  rw [hsame.leaves] at hp
  refine (hc p (by rw [hlv]; exact hp)).congr ?_ (by rw [f2]) (by rw [f1])
  rw [hsame.box, s2.box, s1.box]

end TPTree

namespace TPSampler

open TPTree

theorem visit_cached {t : Pt K d → K} {c : Pt K d} {R : K} (hR : 0 < R) {S S' : TPSampler K d} {e : ℕ}
    (r : Reached c R S.T e) {draw : ℕ → Pt K d} (hu : ∀ p i, 0 < draw p i ∧ draw p i < 1) {p : ℕ} (hp : p ∈ S.T.leaves)
    (h : visit (fun x => XF.fin (t x)) draw S p = .ok S') : Cached t 1 S'.T p := by
  obtain ⟨n, hn, hs, h1, h2, h3, _⟩ := visit_full r.wf h
  have hb := box_node hn
  have hr := r.box_pos hR hp
  rw [hb] at hr
  refine ⟨_, h2, ?_, ?_⟩
  · rw [hs.box, hb]
    intro i
    have := sampler_sample1 n hr (draw p) (fun i => ⟨(hu p i).1.le, (hu p i).2⟩) i
    exact ⟨this.1, this.2.le⟩
  · rw [h3, weight_open t n hr _ (hu p), hs.box, hb, div_one]

theorem visits_cached {t : Pt K d → K} {c : Pt K d} {R : K} (hR : 0 < R) {draw : ℕ → Pt K d}
    (hu : ∀ p i, 0 < draw p i ∧ draw p i < 1) : ∀ (ps : List ℕ) (S S' : TPSampler K d) (e : ℕ), Reached c R S.T e →
    (∀ p ∈ ps, p ∈ S.T.leaves) → ps.foldlM (visit (fun x => XF.fin (t x)) draw) S = .ok S' →
    ∀ p ∈ S.T.leaves, Cached t 1 S.T p ∨ p ∈ ps → Cached t 1 S'.T p
  | [], S, S', e, r, hl, h, p, hp => by
    simp only [List.foldlM_nil, pure, Except.pure, Except.ok.injEq] at h
    subst h
    simp
  | q :: ps, S, S', e, r, hl, h, p, hp => by
    simp only [List.foldlM_cons, bind, Except.bind] at h
    cases h1 : visit (fun x => XF.fin (t x)) draw S q with
    | error e => simp [h1] at h
    | ok S1 =>
      rw [h1] at h
      simp only at h
      obtain ⟨n, hn, hs, _, _, _, h4⟩ := visit_full r.wf h1
      have hq := hl q (by simp)
      have a2 := visit_cached hR r hu hq h1
      have := visits_cached hR hu ps S1 S' e (r.same hs) (fun x hx => by rw [hs.leaves]; exact hl x (by simp [hx])) h p
        (by rw [hs.leaves]; exact hp)
      intro h5
      apply this
      by_cases hpq : p = q
      · subst hpq; exact Or.inl a2
      · rcases h5 with h5 | h5
        · exact Or.inl (h5.congr (hs.box p) (h4 p hpq).2.1 (h4 p hpq).2.2)
        · exact Or.inr ((List.mem_cons.1 h5).resolve_left hpq)

/-- Invariant: the cached weights of all leaves are target times volume with a common divisor, which is 1 when there is
no leaf resampling and the root has been split (`first`: the sampler has not completed a call). -/
structure Fair (cfg : TPConfig K) (t : Pt K d → K) (c : Pt K d) (R : K) (S : TPSampler K d) : Prop where
  ready : Ready (fun x => XF.fin (t x)) c R S
  cache : ∃ s > 0, (cfg.leafResampling = true ∨ Reached c R S.T 0 ∨ s = 1) ∧ ∀ p ∈ S.T.leaves, Cached t s S.T p

theorem iterate_fair {cfg : TPConfig K} {t : Pt K d → K} (ht : ∀ x, 0 ≤ t x) {c : Pt K d} {R : K} (hR : 0 < R)
    {it : TPIter K d} (hit : it.Open) {S S' : TPSampler K d} (g : Fair cfg t c R S)
    (hS' : iterate cfg (fun x => XF.fin (t x)) it S = .ok S') : Fair cfg t c R S' := by
  have hval : it.Valid := ⟨fun p i => ⟨(hit.1 p i).1.le, (hit.1 p i).2⟩, fun p i => ⟨(hit.2 p i).1.le, (hit.2 p i).2⟩⟩
  obtain ⟨Sx, hSx, r', _⟩ := iterate_spec hR cfg hval g.ready
  rw [hS'] at hSx
  obtain rfl : S' = Sx := by simpa using hSx
  obtain ⟨e0, hr⟩ := g.ready.reached
  have hperm := sortedLeaves_perm S.T
  have hnd : (sortedLeaves S.T).Nodup := hperm.nodup_iff.2 hr.wf.leavesNodup
  have hmem : ∀ p ∈ sortedLeaves S.T, p ∈ S.T.leaves := fun p hp => hperm.mem_iff.1 hp
  obtain ⟨T1, new, S2, hx, hv, hres⟩ := iterate_parts hS'
  obtain ⟨⟨e1, r1⟩, _, a3, a4, _⟩ := expandNodes_spec cfg.essTarget cfg.nMin cfg.parallel (sortedLeaves S.T) S.T T1 e0 []
    new hr hx (by simpa using hnd) (by simpa using hmem)
  have hsame2 : Same T1 S2.T := visits_same new { S with T := T1 } S2 hv
  have r2 := r1.same hsame2
  have hvis := visits_cached hR hit.1 new { S with T := T1 } S2 e1 r1 a3 hv
  refine ⟨r', ?_⟩
  rcases hres with ⟨hb, hres⟩ | ⟨hb, rfl⟩
  · obtain ⟨s, hs0, q2⟩ := resample_cached hR ht r2 hit.2 hres
    exact ⟨s, hs0, Or.inl hb, q2⟩
  · refine ⟨1, one_pos, Or.inr (Or.inr rfl), ?_⟩
    intro p hp
    rw [hsame2.leaves] at hp
    apply hvis p hp
    obtain ⟨s, hs0, hs1, hs2⟩ := g.cache
    rcases hs1 with h0 | h0 | h0
    · rw [hb] at h0; cases h0
    · right
      obtain ⟨hl0, _⟩ := h0.root_leaf
      have hsl : sortedLeaves S.T = [0] := by
        rw [hl0] at hperm
        exact List.perm_singleton.1 hperm
      rw [hsl] at hx
      rcases h0.expandNodes_root hx with ⟨rfl, rfl⟩ | ⟨n, hn, _, rfl, rfl, _⟩
      · rw [hl0] at hp; exact hp
      · have := ((h0.children hn).1 p).1 hp
        rw [List.mem_range'_1]
        exact this
    · rcases a4 p hp with ⟨g1, g2, g3, g4⟩ | ⟨g1, _⟩
      · left
        have := hs2 p g1
        rw [h0] at this
        refine this.congr ?_ g3 g4
        unfold box; rw [g2]
      · exact Or.inr g1

theorem loop_fair {cfg : TPConfig K} {t : Pt K d → K} (ht : ∀ x, 0 ≤ t x) {c : Pt K d} {R : K} (hR : 0 < R) (nS : ℕ) :
    ∀ (its : List (TPIter K d)) (late : Bool) (S S' : TPSampler K d) (b : Bool), (∀ it ∈ its, it.Open) →
    Fair cfg t c R S → loop cfg (fun x => XF.fin (t x)) nS late its S = .ok (S', b) → Fair cfg t c R S'
  | [], late, S, S', b, hit, g, h => by
    unfold loop at h
    cases hg : S.T.getSamples cfg.essTarget with
    | error e => simp [hg, bind, Except.bind] at h
    | ok o =>
      simp only [hg, bind, Except.bind, pure, Except.pure, Except.ok.injEq, Prod.mk.injEq] at h
      obtain ⟨rfl, _⟩ := h
      exact g
  | it :: its, late, S, S', b, hit, g, h => by
    unfold loop at h
    cases hg : S.T.getSamples cfg.essTarget with
    | error e => simp [hg, bind, Except.bind] at h
    | ok o =>
      simp only [hg, bind, Except.bind, pure, Except.pure] at h
      split_ifs at h with hc
      · cases hi : iterate cfg (fun x => XF.fin (t x)) it S with
        | error e => simp [hi] at h
        | ok S1 =>
          rw [hi] at h
          exact loop_fair ht hR nS its it.late S1 S' b (fun i hi => hit i (by simp [hi]))
            (iterate_fair ht hR (hit it (by simp)) g hi) h
      · simp only [Except.ok.injEq, Prod.mk.injEq] at h
        obtain ⟨rfl, _⟩ := h
        exact g

theorem initRoot_fair (cfg : TPConfig K) {t : Pt K d → K} (ht : ∀ x, 0 ≤ t x) {c : Pt K d} {R : K} (hR : 0 < R)
    {S S' : TPSampler K d} (hb : Blank c R S) {u : Pt K d} (hu : ∀ i, 0 < u i ∧ u i < 1)
    (h' : initRoot (fun x => XF.fin (t x)) u S = .ok S') : Fair cfg t c R S' := by
  have hu' : ∀ i, 0 ≤ u i ∧ u i < 1 := fun i => ⟨(hu i).1.le, (hu i).2⟩
  obtain ⟨Sx, hx, r'⟩ := initRoot_spec (target := fun x => XF.fin (t x)) hR hu' (Or.inl hb)
  rw [h'] at hx
  obtain rfl : S' = Sx := by simpa using hx
  have r0 := hb.reached
  obtain ⟨hl0, _⟩ := r0.root_leaf
  obtain ⟨root, hroot, h1, h2, h3⟩ := hb.root
  obtain ⟨Sv, hv, _⟩ := visit_spec (target := fun x => XF.fin (t x)) hR r0 (draw := fun _ => u) (fun _ => hu') (p := 0)
    (by rw [hl0]; simp) (Or.inl ⟨root, hroot, h1, h2⟩)
  have l1 := visit_cached hR r0 (draw := fun _ => u) (fun _ => hu) (p := 0) (by rw [hl0]; simp) hv
  obtain ⟨_, _, hs, _⟩ := visit_full r0.wf hv
  have hT : S'.T = Sv.T.selfNormalize := by
    unfold initRoot at h'
    unfold visit at hv
    simp only [hroot, h2, h3, and_self, if_true, bind, Except.bind, pure, Except.pure] at h' hv
    cases g1 : S.T.sampleNode 0 (root.sampler.sample1 u) with
    | error e => simp [g1] at h'
    | ok T1 =>
      rw [g1] at h' hv
      simp only at h' hv
      cases g2 : T1.weighNode 0 (fun x => XF.fin (t x)) root.sampler.prob1 with
      | error e => simp [g2] at h'
      | ok T2 =>
        rw [g2] at h' hv
        simp only [Except.ok.injEq] at h' hv
        rw [updateModel_tree h', ← hv]
  have rv := r0.same hs
  have r2 : Reached c R S'.T 0 := by rw [hT]; exact rv.same (selfNormalize_same rv.wf)
  obtain ⟨s, hs0, hc⟩ := Cached.normalize hR one_pos ht rv (fun p hp => by
    have := rv.root_leaf.1
    rw [this, List.mem_singleton] at hp
    subst hp; exact l1)
  exact ⟨r', s, hs0, Or.inr (Or.inl r2), by rw [hT]; exact hc⟩

theorem initRoot_ready (target : Pt K d → XF K) {c : Pt K d} {R : K} {S S' : TPSampler K d} {u : Pt K d}
    (h : Ready target c R S) (h' : initRoot target u S = .ok S') : S' = S := by
  obtain ⟨e, r⟩ := h.reached
  obtain ⟨root, hroot, _⟩ := r.root
  unfold initRoot at h'
  simp only [hroot] at h'
  split_ifs at h' with hc
  · exfalso
    rcases r.wf.leafOf 0 root hroot with hl | ⟨j, _, hj⟩
    · have := r.wf.del 0 root hroot hl
      rw [hc.1] at this
      cases this
    · obtain ⟨n, ch, wh, g1, g2, g3, _⟩ := h.hist 0 (List.mem_iff_getElem?.2 ⟨j, hj⟩)
      rw [hroot] at g1
      obtain rfl : root = n := by simpa using g1
      rw [hc.2] at g3
      cases g3
  · simpa using h'.symm

theorem new_root {dmin dmax : Pt K d} (hlt : ∀ i, dmin i < dmax i) {S : TPSampler K d} (h : new dmin dmax = .ok S) {R : K}
    (hR : IsGreatest (Set.range fun i => (dmax i - dmin i) / 2) R) :
    0 < R ∧ Blank (fun i => (dmin i + dmax i) / 2) R S ∧ Leveled R S.T := by
  obtain ⟨⟨i, hi⟩, hge⟩ := hR
  have hR0 : 0 < R := by rw [← hi]; have := hlt i; simp only; linarith
  unfold new at h
  cases h0 : TPTree.init dmin dmax with
  | error e => simp [h0, Except.map] at h
  | ok T =>
    rw [h0] at h
    simp only [Except.map, Except.ok.injEq] at h
    obtain ⟨R', ⟨i', hi'⟩, hb, r⟩ := reached_init h0
    obtain rfl : R = R' := le_antisymm (by rw [← hi]; exact hb i) (by rw [hi']; exact hge ⟨i', rfl⟩)
    obtain ⟨R', _, _, hT⟩ := init_eq h0
    subst h
    refine ⟨hR0, ⟨r, ?_⟩, ?_⟩
    · subst hT
      exact ⟨_, rfl, rfl, rfl, rfl⟩
    · intro n hn
      obtain ⟨m, hm, _, hm1, hm2⟩ := r.root
      obtain ⟨_, n', hn', _, hall⟩ := r.root_leaf
      simp only at hn
      rw [hall, List.mem_singleton] at hn
      subst hn
      rw [hn'] at hm
      obtain rfl := Option.some.inj hm
      rw [hm1, hm2]; simp

end TPSampler
end Verif
