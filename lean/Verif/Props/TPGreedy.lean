import Verif.Proof.TPValue
import Verif.Props.TPSampling

/-!
# Property C109: the tree pyramid refines the leaves of largest importance volume first
-/

set_option linter.unusedSectionVars false
set_option autoImplicit false

namespace Verif

variable {K : Type*} [Field K] [LinearOrder K] [IsStrictOrderedRing K] {d : ℕ}

open TPTree

namespace TPSampler

theorem calls_valued {target : Pt K d → XF K} {c : Pt K d} {R : K} (hR : 0 < R) {cfg : TPConfig K} {t : K}
    (ht : cfg.essTarget = some t) : ∀ (cs : List (TPCall K d)) (S S' : TPSampler K d), (∀ x ∈ cs, x.InRange) →
    (Blank c R S ∨ Ready target c R S) → Valued cfg.leafResampling S.T → S.calls cfg target cs = .ok S' →
    Valued cfg.leafResampling S'.T
  | [], S, S', _, _, hv, h => by
    simp only [calls, List.foldlM_nil, pure, Except.pure, Except.ok.injEq] at h
    rw [← h]; exact hv
  | x :: cs, S, S', hr, hb, hv, h => by
    obtain ⟨S1, out, h1, r1, _⟩ := importanceSampleSimple_spec hR cfg ht x.n (hr x (by simp)).1 (hr x (by simp)).2 hb
    refine calls_valued hR ht cs S1 S' (fun y hy => hr y (by simp [hy])) (Or.inr r1)
      (call_valued hR ht (hr x (by simp)) hb hv h1) ?_
    unfold calls at h ⊢
    rw [List.foldlM_cons, h1] at h
    exact h

end TPSampler

theorem shouldExpand_iff {n : TPNode K d} {ws : List (XF K)} (hw : n.weightHist = some ws) (t : K) (nMin : ℕ) :
    shouldExpand n (some t) nMin = .ok true ↔ nMin ≤ ws.length ∧
      XF.ltb (XF.fin (t * ws.length)) (ws.sum * ws.sum / (ws.map fun w => w * w).sum) = false := by
  unfold shouldExpand
  simp only [hw]
  split_ifs with h1 h2
  · simp; intro h; omega
  · simp [h2]
  · simp at h1 h2
    simp [h1, h2]

/-- **C109** After any calls on a new sampler, in the next iteration of the sampling loop: only leaves that meet the
splitting criterion are split; if some leaf meets it, some leaf is split; and, unless an importance volume is undefined
(nan), no leaf that meets the criterion is left unsplit while a leaf of smaller importance volume is split. -/
theorem C109_greedy {dmin dmax : Pt K d} (hlt : ∀ i, dmin i < dmax i) (cfg : TPConfig K) {t : K}
    (ht : cfg.essTarget = some t) (target : Pt K d → XF K) {S0 S : TPSampler K d}
    (h0 : TPSampler.new dmin dmax = .ok S0) (cs : List (TPCall K d)) (hne : cs ≠ []) (hv : ∀ x ∈ cs, x.InRange)
    (hS : S0.calls cfg target cs = .ok S) (it : TPIter K d) (hit : it.Valid) :
    ∃ S', TPSampler.iterate cfg target it S = .ok S' ∧
      (∀ p ∈ S.T.leaves, p ∉ S'.T.leaves → Splittable t cfg.nMin S.T p) ∧
      (∀ p ∈ S.T.leaves, Splittable t cfg.nMin S.T p → ∃ q ∈ S.T.leaves, q ∉ S'.T.leaves) ∧
      ((∀ p ∈ S.T.leaves, ¬ ImportanceVolume cfg.leafResampling S.T p XF.nan) →
        ∀ p ∈ S.T.leaves, ∀ q ∈ S.T.leaves, p ∉ S'.T.leaves → q ∈ S'.T.leaves → Splittable t cfg.nMin S.T q →
        ∀ vp vq, ImportanceVolume cfg.leafResampling S.T p vp → ImportanceVolume cfg.leafResampling S.T q vq →
        XF.ltb vp vq = false) := by
  obtain ⟨R, hR, b⟩ := TPSampler.new_blank hlt h0
  obtain ⟨Sx, h1, _, h2⟩ := TPSampler.calls_ready (target := target) hR cfg ht cs S0 hv (Or.inl b)
  rw [hS] at h1
  obtain rfl : S = Sx := by simpa using h1
  have r := h2 hne
  obtain ⟨e, hr⟩ := r.reached
  obtain ⟨S', hS', _⟩ := TPSampler.iterate_spec hR cfg hit r
  have v0 : TPSampler.Valued cfg.leafResampling S0.T := by
    obtain ⟨n, hn, _, hw, _⟩ := b.root
    have hlen : S0.T.nodes.length = 1 := by simpa using b.reached.nNodes
    cases hres : cfg.leafResampling with
    | true => exact Or.inr ⟨rfl, Or.inl hlen⟩
    | false =>
      refine Or.inl ⟨rfl, ?_⟩
      intro m hm ws hws
      obtain ⟨k, hk⟩ := List.mem_iff_getElem?.1 hm
      have := (List.getElem?_eq_some_iff.1 hk).1
      obtain rfl : k = 0 := by omega
      rw [hn] at hk
      obtain rfl : n = m := by simpa using hk
      rw [hw] at hws; cases hws
  have vS := TPSampler.calls_valued hR ht cs S0 S hv (Or.inl b) v0 hS
  have hperm := TPSampler.sortedLeaves_perm S.T
  have hnd : (TPSampler.sortedLeaves S.T).Nodup := hperm.nodup_iff.2 hr.wf.leavesNodup
  have hmem : ∀ p ∈ TPSampler.sortedLeaves S.T, p ∈ S.T.leaves := fun p hp => hperm.mem_iff.1 hp
  obtain ⟨T1, new, hx, hl⟩ := TPSampler.iterate_leaves r hS'
  obtain ⟨done, rest, e1, e2, e3⟩ := expandNodes_prefix cfg.essTarget cfg.nMin cfg.parallel _ S.T T1 e [] new hr hx hnd hmem
  have split_iff : ∀ p ∈ S.T.leaves, p ∉ S'.T.leaves ↔ p ∈ done ∧ Splittable t cfg.nMin S.T p := by
    intro p hp
    rw [hl, e2 p (hr.wf.leaf_lt hp)]
    obtain ⟨n, ch, ws, hn, _, hw, _⟩ := r.hist p hp
    constructor
    · rintro (h | ⟨h, m, hm, hs⟩)
      · exact absurd hp h
      · rw [hn] at hm
        obtain rfl : n = m := by simpa using hm
        rw [ht, shouldExpand_iff hw] at hs
        exact ⟨h, n, ws, hn, hw, hs⟩
    · rintro ⟨h, m, ws', hm, hw', hs⟩
      exact Or.inr ⟨h, m, hm, by rw [ht, shouldExpand_iff hw']; exact hs⟩
  refine ⟨S', hS', fun p hp hps => ((split_iff p hp).1 hps).2, ?_, ?_⟩
  · intro p hp hsp
    by_cases hd : p ∈ done
    · exact ⟨p, hp, (split_iff p hp).2 ⟨hd, hsp⟩⟩
    · have hps : p ∈ done ++ rest := by rw [← e1]; exact hperm.mem_iff.2 hp
      have hrest : rest ≠ [] := by
        rintro rfl
        simp at hps
        exact hd hps
      obtain ⟨q, hq1, hq2⟩ := e3 hrest
      exact ⟨q, hmem q (by rw [e1]; simp [hq1]), by rw [hl]; exact hq2⟩
  · intro hnan p hp q hq hps hqs hsq vp vq hvp hvq
    have hpq : p ≠ q := by rintro rfl; exact hps hqs
    have hpd := ((split_iff p hp).1 hps).1
    have hqd : q ∉ done := fun h => (split_iff q hq).2 ⟨h, hsq⟩ hqs
    have hqr : q ∈ rest := by
      have : q ∈ done ++ rest := by rw [← e1]; exact hperm.mem_iff.2 hq
      rcases List.mem_append.1 this with h | h
      · exact absurd h hqd
      · exact h
    have h2d : (0 : K) < 2 ^ d := by positivity
    -- stored values and importance volumes have the same order
    obtain ⟨k, hk, hval⟩ : ∃ k : K, 0 < k ∧ ∀ x ∈ S.T.leaves, ∀ v, ImportanceVolume cfg.leafResampling S.T x v →
        v = S.T.valueAt x * XF.fin k := by
      rcases vS with ⟨he, hm⟩ | ⟨he, hm⟩
      · refine ⟨2 ^ d, h2d, ?_⟩
        rintro x hx v ⟨n, ws, hn, hw, rfl⟩
        have := hm n (List.mem_iff_getElem?.2 ⟨x, hn⟩) ws hw
        rw [he]
        unfold valueAt leafEstimate
        simp only [hn, Bool.false_eq_true, if_false]
        rw [this, mul_pow, XF.mul_fin_mul _ _ h2d]
      · rcases hm with hm | hm
        · exfalso
          have a1 := hr.wf.leaf_lt hp
          have a2 := hr.wf.leaf_lt hq
          omega
        · refine ⟨1, one_pos, ?_⟩
          rintro x hx v ⟨n, ws, hn, hw, rfl⟩
          have := hm x hx n hn ws hw
          rw [he]
          unfold valueAt leafEstimate
          simp only [hn, if_true]
          rw [this, ← XF.mul_fin_mul _ _ one_pos, one_mul]
    have hsorted := sortedLeaves_pairwise S.T (by
      intro x hx hnx
      obtain ⟨n, ch, ws, hn, _, hw, _⟩ := r.hist x hx
      have hiv : ImportanceVolume cfg.leafResampling S.T x
        (leafEstimate cfg.leafResampling ws * XF.fin ((2 * n.radius) ^ d)) := ⟨n, ws, hn, hw, rfl⟩
      have := hval x hx _ hiv
      rw [hnx, XF.nan_mul] at this
      rw [this] at hiv
      exact hnan x hx hiv)
    rw [e1, List.pairwise_append] at hsorted
    rw [hval p hp vp hvp, hval q hq vq hvq, XF.ltb_mul_fin _ _ hk]
    exact hsorted.2.2 p hpd q hqr

/-- Concrete run for C109: two leaves of equal size after the first refinement, weights 1/8 and 3/8; the next iteration
splits the right one only. -/
def greedyDemo : Option (List ℕ × List (Option (List (XF ℚ))) × List ℕ) :=
  match TPSampler.new (K := ℚ) ![0] ![1] with
  | .error _ => none
  | .ok S0 =>
    match S0.calls ⟨some 2, 1, 1, false⟩ (fun x => XF.fin (x 0)) [⟨2, ![1/2], [⟨fun _ => ![1/2], fun _ => ![1/2], false⟩]⟩] with
    | .error _ => none
    | .ok S =>
      match TPSampler.iterate ⟨some 2, 1, 1, false⟩ (fun x => XF.fin (x 0)) ⟨fun _ => ![1/2], fun _ => ![1/2], false⟩ S with
      | .error _ => none
      | .ok S' => some (S.T.leaves, S.T.leaves.map (fun p => (S.T.nodes[p]?).bind TPNode.weightHist), S'.T.leaves)

example : (greedyDemo.map fun r => (r.1, r.2.2)) = some ([1, 2], [1, 3, 4]) := by decide +kernel

example : (greedyDemo.map fun r => r.2.1) = some [some [XF.fin (1/8)], some [XF.fin (3/8)]] := by decide +kernel

example : TPIter.Valid (K := ℚ) (d := 1) ⟨fun _ => ![1/2], fun _ => ![1/2], false⟩ := by
  constructor <;>
  · intro _ i; fin_cases i; exact (by decide +kernel : (0 : ℚ) ≤ 1/2 ∧ (1/2 : ℚ) < 1)

end Verif
