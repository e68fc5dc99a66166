import Verif.Proof.TPConverge
import Verif.Proof.TPCache

/-!
A run of the one dimensional tree pyramid that never returns to a half in which the first sample had density 0.
-/

set_option linter.unusedSectionVars false
set_option autoImplicit false

namespace Verif

namespace TPTree

theorem childCenters_one (n : TPNode ℝ 1) :
    childCenters n = [fun i => n.center i + n.radius / 2 * -1, fun i => n.center i + n.radius / 2 * 1] := by
  simp only [childCenters, signVecs, List.flatMap_cons, List.flatMap_nil, List.map_cons, List.map_nil, List.append_nil,
    List.cons_append, List.nil_append]
  congr 1
  · funext i; fin_cases i; simp
  · congr 1; funext i; fin_cases i; simp

theorem insert_one (T : TPTree ℝ 1) {p : ℕ} (n : TPNode ℝ 1) (hp : p < T.nodes.length) :
    (insertChildren T p n).1.nodes[T.nodes.length]?
      = some (childAt T n 0 (fun i => n.center i + n.radius / 2 * -1)) ∧
    (insertChildren T p n).1.nodes[T.nodes.length + 1]?
      = some (childAt T n 1 (fun i => n.center i + n.radius / 2 * 1)) ∧
    (insertChildren T p n).2 = [T.nodes.length, T.nodes.length + 1] := by
  rw [insertChildren_eq]
  simp only
  refine ⟨?_, ?_, by simp [List.range']⟩
  · rw [List.getElem?_set_ne (by omega), List.getElem?_append_right le_rfl, kids_getElem?, childCenters_one]
    simp
  · rw [List.getElem?_set_ne (by omega), List.getElem?_append_right (by omega), kids_getElem?, childCenters_one]
    simp

/-- Leaf with one sample, of positive weight, in the left half of the unit interval. -/
def PosLeaf (T : TPTree ℝ 1) (p : ℕ) : Prop :=
  ∃ (n : TPNode ℝ 1) (x : Pt ℝ 1) (w w' v : ℝ), T.nodes[p]? = some n ∧ n.weightHist = some [XF.fin w] ∧ 0 < w ∧
    n.value = XF.fin v ∧ 0 < v ∧ T.samples[p]? = some x ∧ x 0 ≤ 1 / 2 ∧ T.weights[p]? = some (XF.fin w') ∧ 0 < w'

/-- Leaf with one sample, of weight 0. -/
def NullLeaf (T : TPTree ℝ 1) (p : ℕ) : Prop :=
  ∃ (n : TPNode ℝ 1) (x : Pt ℝ 1), T.nodes[p]? = some n ∧ n.value = XF.fin 0 ∧ T.samples[p]? = some x ∧
    T.weights[p]? = some (XF.fin 0)

theorem PosLeaf.congr {T T' : TPTree ℝ 1} {p : ℕ} (h1 : T'.nodes[p]? = T.nodes[p]?) (h2 : T'.samples[p]? = T.samples[p]?)
    (h3 : T'.weights[p]? = T.weights[p]?) (h : PosLeaf T p) : PosLeaf T' p := by
  obtain ⟨n, x, w, w', v, a, b, c, e, f, g, i, j, k⟩ := h
  exact ⟨n, x, w, w', v, by rw [h1, a], b, c, e, f, by rw [h2, g], i, by rw [h3, j], k⟩

theorem NullLeaf.congr {T T' : TPTree ℝ 1} {p : ℕ} (h1 : T'.nodes[p]? = T.nodes[p]?) (h2 : T'.samples[p]? = T.samples[p]?)
    (h3 : T'.weights[p]? = T.weights[p]?) (h : NullLeaf T p) : NullLeaf T' p := by
  obtain ⟨n, x, a, b, c, e⟩ := h
  exact ⟨n, x, by rw [h1, a], b, by rw [h2, c], by rw [h3, e]⟩

end TPTree

namespace TPSampler

open TPTree

theorem visits_full {K : Type*} [Field K] [LinearOrder K] [IsStrictOrderedRing K] {d : ℕ} {target : Pt K d → XF K}
    {draw : ℕ → Pt K d} : ∀ (ps : List ℕ) (S S' : TPSampler K d), WF S.T → ps.Nodup →
    ps.foldlM (visit target draw) S = .ok S' → Same S.T S'.T ∧
      (∀ p ∈ ps, ∃ n, S.T.nodes[p]? = some n ∧
        S'.T.nodes[p]? = some ((n.sample (n.sampler.sample1 (draw p))).weigh target n.sampler.prob1) ∧
        S'.T.samples[p]? = some (n.sampler.sample1 (draw p)) ∧
        S'.T.weights[p]? = some (target (n.sampler.sample1 (draw p)) / n.sampler.prob1 (n.sampler.sample1 (draw p)))) ∧
      ∀ q, q ∉ ps → S'.T.nodes[q]? = S.T.nodes[q]? ∧ S'.T.samples[q]? = S.T.samples[q]? ∧
        S'.T.weights[q]? = S.T.weights[q]?
  | [], S, S', I, _, h => by
    simp only [List.foldlM_nil, pure, Except.pure, Except.ok.injEq] at h
    subst h
    exact ⟨Same.refl _, by simp, fun _ _ => ⟨rfl, rfl, rfl⟩⟩
  | p :: ps, S, S', I, hnd, h => by
    rw [List.nodup_cons] at hnd
    simp only [List.foldlM_cons, bind, Except.bind] at h
    cases h1 : visit target draw S p with
    | error e => simp [h1] at h
    | ok S1 =>
      rw [h1] at h
      simp only at h
      obtain ⟨n, hn, hs, a1, a2, a3, a4⟩ := visit_full I h1
      obtain ⟨b1, b2, b3⟩ := visits_full ps S1 S' (hs.inv I) hnd.2 h
      refine ⟨hs.trans b1, ?_, ?_⟩
      · intro q hq
        by_cases hqp : q = p
        · subst hqp
          obtain ⟨c1, c2, c3⟩ := b3 q hnd.1
          exact ⟨n, hn, by rw [c1, a1], by rw [c2, a2], by rw [c3, a3]⟩
        · obtain ⟨m, e1, e2⟩ := b2 q ((List.mem_cons.1 hq).resolve_left hqp)
          exact ⟨m, by rw [← (a4 q hqp).1, e1], e2⟩
      · intro q hq
        simp only [List.mem_cons, not_or] at hq
        obtain ⟨c1, c2, c3⟩ := b3 q hq.2
        obtain ⟨f1, f2, f3⟩ := a4 q hq.1
        exact ⟨c1.trans f1, c2.trans f2, c3.trans f3⟩

variable {t : Pt ℝ 1 → ℝ}

/-- First sample of a node: its value and weight. -/
theorem first_sample (t : Pt ℝ 1 → ℝ) {n : TPNode ℝ 1} (hr : 0 < n.radius) (hh : n.weightHist = none) {u : Pt ℝ 1}
    (hu : ∀ i, 0 < u i ∧ u i < 1) :
    let n' := (n.sample (n.sampler.sample1 u)).weigh (fun x => XF.fin (t x)) n.sampler.prob1
    n'.weightHist = some [XF.fin (t (n.sampler.sample1 u) * (2 * n.radius))] ∧
    n'.value = XF.fin (t (n.sampler.sample1 u) * (2 * n.radius) * n.radius) := by
  intro n'
  have hw := weight_open t n hr u hu
  rw [pow_one] at hw
  have e1 : n'.weightHist = some [XF.fin (t (n.sampler.sample1 u)) / n.sampler.prob1 (n.sampler.sample1 u)] := by
    show some (n.weightHist.getD [] ++ _) = _
    rw [hh]; rfl
  have e2 : n'.value = (n.weightHist.getD [] ++ [XF.fin (t (n.sampler.sample1 u)) /
      n.sampler.prob1 (n.sampler.sample1 u)]).sum / XF.fin (((n.weightHist.getD [] ++
        [XF.fin (t (n.sampler.sample1 u)) / n.sampler.prob1 (n.sampler.sample1 u)]).length : ℕ) : ℝ) *
      XF.fin (n.radius ^ 1) := rfl
  refine ⟨by rw [e1, hw], ?_⟩
  rw [e2, hw, hh]
  have hs : (Option.getD none [] ++ [XF.fin (t (n.sampler.sample1 u) * (2 * n.radius))]).sum
      = XF.fin (t (n.sampler.sample1 u) * (2 * n.radius)) := by
    have := XF.sum_map_fin [t (n.sampler.sample1 u) * (2 * n.radius)]
    simpa using this
  rw [hs]
  simp only [Option.getD_none, List.nil_append, List.length_singleton, Nat.cast_one, pow_one]
  rw [XF.fin_div_ne _ _ one_ne_zero, XF.fin_mul, div_one]

/-- An iteration that splits the leaf `q`, of which it is known that it comes first. -/
theorem iterate_split {cfg : TPConfig ℝ} {e : ℝ} (he : cfg.essTarget = some e) (h1e : 1 < e) (hm : cfg.nMin ≤ 1)
    (hpar : cfg.parallel ≤ 1) (hlr : cfg.leafResampling = false) {c : Pt ℝ 1} {R : ℝ} (hR : 0 < R)
    {it : TPIter ℝ 1} (hit : it.Open) {S : TPSampler ℝ 1} (r : Ready (fun x => XF.fin (t x)) c R S) {q : ℕ} {ps : List ℕ}
    (hq : sortedLeaves S.T = q :: ps) (hpos : PosLeaf S.T q) :
    ∃ S' n, iterate cfg (fun x => XF.fin (t x)) it S = .ok S' ∧ Ready (fun x => XF.fin (t x)) c R S' ∧
      S.T.nodes[q]? = some n ∧ 0 < n.radius ∧ q ∈ S.T.leaves ∧
      (∀ p, p ∈ S'.T.leaves ↔ (p ∈ S.T.leaves ∧ p ≠ q) ∨ p = S.T.nodes.length ∨ p = S.T.nodes.length + 1) ∧
      S'.T.leaves.length = S.T.leaves.length + 1 ∧ S'.T.nodes.length = S.T.nodes.length + 2 ∧
      (∀ p ∈ S.T.leaves, p ≠ q → S'.T.nodes[p]? = S.T.nodes[p]? ∧ S'.T.samples[p]? = S.T.samples[p]? ∧
        S'.T.weights[p]? = S.T.weights[p]?) ∧
      ∀ k : ℕ, k < 2 → ∃ (m : TPNode ℝ 1) (x : Pt ℝ 1), S'.T.nodes[S.T.nodes.length + k]? = some m ∧
        m.radius = n.radius / 2 ∧ m.center 0 = n.center 0 + n.radius / 2 * (2 * k - 1) ∧
        x 0 = m.center 0 - m.radius + 2 * m.radius * it.draw (S.T.nodes.length + k) 0 ∧
        m.weightHist = some [XF.fin (t x * n.radius)] ∧ m.value = XF.fin (t x * n.radius * (n.radius / 2)) ∧
        S'.T.samples[S.T.nodes.length + k]? = some x ∧
        S'.T.weights[S.T.nodes.length + k]? = some (XF.fin (t x * n.radius)) := by
  have hval : it.Valid := ⟨fun p i => ⟨(hit.1 p i).1.le, (hit.1 p i).2⟩, fun p i => ⟨(hit.2 p i).1.le, (hit.2 p i).2⟩⟩
  obtain ⟨S', hS', r', _⟩ := iterate_spec hR cfg hval r
  obtain ⟨e0, hr⟩ := r.reached
  have hqL : q ∈ S.T.leaves := (sortedLeaves_perm S.T).mem_iff.1 (by rw [hq]; simp)
  obtain ⟨T1, new, S2, hx, hv, hres⟩ := iterate_parts hS'
  rcases hres with ⟨hb, _⟩ | ⟨_, rfl⟩
  · rw [hlr] at hb; cases hb
  obtain ⟨n, x0, w, w', v, hn, hwh, hw0, _⟩ := hpos
  have hqN : q < S.T.nodes.length := (List.getElem?_eq_some_iff.1 hn).1
  have hrad : 0 < n.radius := by
    have := hr.box_pos hR hqL
    rw [box_node hn] at this; exact this
  obtain ⟨n', hn', hleaf⟩ := hr.wf.leaf_node hqL
  rw [hn] at hn'
  obtain rfl := Option.some.inj hn'
  have hse : shouldExpand n cfg.essTarget cfg.nMin = .ok true := by
    rw [he, shouldExpand_count (lo := w) (hi := w) hw0 h1e.le hwh ⟨[w], rfl, by simp⟩ (by simp)]
    simp [hm]
  have hexp : S.T.expand q cfg.essTarget cfg.nMin
      = .ok ((insertChildren S.T q n).1, some (insertChildren S.T q n).2) := by
    unfold expand
    simp [hn, hleaf, hse]
  obtain ⟨i1, i2, i3⟩ := insert_one S.T n hqN
  rw [hq] at hx
  simp only [expandNodes, hexp] at hx
  rw [i3] at hx
  rw [if_pos (by simp; omega)] at hx
  simp only [List.nil_append, Except.ok.injEq, Prod.mk.injEq] at hx
  obtain ⟨rfl, rfl⟩ := hx
  have r1 := hr.insert hn hleaf
  obtain ⟨f1, f2, f3⟩ := visits_full _ { S with T := (insertChildren S.T q n).1 } S' r1.wf (by simp) hv
  simp only at f1 f2 f3
  have hlv : ∀ p, p ∈ S'.T.leaves ↔ (p ∈ S.T.leaves ∧ p ≠ q) ∨ p = S.T.nodes.length ∨ p = S.T.nodes.length + 1 := by
    intro p
    rw [f1.leaves, insertChildren_leaves hr.wf hn hleaf]
    constructor
    · rintro (h | h)
      · exact Or.inl h
      · right; omega
    · rintro (h | h)
      · exact Or.inl h
      · right; omega
  have hlen : S'.T.leaves.length = S.T.leaves.length + 1 := by
    rw [f1.leaves, r1.nLeaves, hr.nLeaves]; omega
  have hnodes : S'.T.nodes.length = S.T.nodes.length + 2 := by
    have := (r1.same f1).nNodes
    rw [this, hr.nNodes]; omega
  refine ⟨S', n, hS', r', hn, hrad, hqL, hlv, hlen, hnodes, ?_, ?_⟩
  · intro p hp hpq
    have hpN := hr.wf.leaf_lt hp
    obtain ⟨g1, g2, g3⟩ := f3 p (by simp; omega)
    obtain ⟨k1, k2, k3⟩ := insertChildren_old hr.wf (n := n) hpq hpN
    exact ⟨g1.trans k1, g2.trans k2, g3.trans k3⟩
  · intro k hk
    have hch : ∃ j cc, (insertChildren S.T q n).1.nodes[S.T.nodes.length + k]? = some (childAt S.T n j cc) ∧
        cc 0 = n.center 0 + n.radius / 2 * (2 * k - 1) := by
      interval_cases k
      · exact ⟨_, _, i1, by norm_num⟩
      · exact ⟨_, _, i2, by norm_num⟩
    obtain ⟨j, cc, hcc, hc0⟩ := hch
    obtain ⟨m, b1, b2, b3, b4⟩ := f2 (S.T.nodes.length + k) (by simp; omega)
    rw [hcc] at b1
    obtain rfl := Option.some.inj b1
    have hmr : (childAt S.T n j cc).radius = n.radius / 2 := rfl
    obtain ⟨v1, v2⟩ := first_sample t (n := childAt S.T n j cc) (by rw [hmr]; positivity) rfl (hit.1 (S.T.nodes.length + k))
    have hw := weight_open t (childAt S.T n j cc) (by rw [hmr]; positivity) _ (hit.1 (S.T.nodes.length + k))
    rw [pow_one] at hw
    have h2r : 2 * (childAt S.T n j cc).radius = n.radius := by rw [hmr]; ring
    rw [h2r] at v1 v2 hw
    refine ⟨_, _, b2, rfl, hc0, ?_, v1, v2, b3, by rw [b4, hw]⟩
    simp only [Uniform.sample1, TPNode.sampler, TPNode.weigh, TPNode.sample]
    ring

end TPSampler
end Verif
