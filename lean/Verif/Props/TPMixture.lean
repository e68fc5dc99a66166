import Verif.Proof.TPMixFirst
import Verif.Proof.TPMixRoot
import Verif.Props.TPSampling
import Mathlib.Tactic.FinCases
import Mathlib.Tactic.NormNum

/-!
# Properties of the tree pyramid sampler with the schemes "mixture" and "dm"

C101 number of samples delivered, C102 weights delivered.
-/

set_option linter.unusedSectionVars false
set_option autoImplicit false

namespace Verif

variable {K : Type*} [Field K] [LinearOrder K] [IsStrictOrderedRing K] {d : ℕ}

open TPTree

namespace TPSampler

theorem new_blank' {dmin dmax : Pt K d} (hlt : ∀ i, dmin i < dmax i) {S : TPSampler K d} (h : new dmin dmax = .ok S) :
    ∃ R : K, 0 < R ∧ (∀ i, (dmax i - dmin i) / 2 ≤ R) ∧ Blank (fun i => (dmin i + dmax i) / 2) R S := by
  unfold new at h
  cases h0 : TPTree.init dmin dmax with
  | error e => simp [h0, Except.map] at h
  | ok T =>
    rw [h0] at h
    simp only [Except.map, Except.ok.injEq] at h
    obtain ⟨R, ⟨i, hi⟩, hb, r⟩ := reached_init h0
    refine ⟨R, by rw [hi]; have := hlt i; linarith, hb, ?_⟩
    obtain ⟨R', _, _, hT⟩ := init_eq h0
    subst h
    refine ⟨r, ?_⟩
    rw [hT]
    exact ⟨_, rfl, rfl, rfl, rfl⟩

end TPSampler

/-- C101 (code disagrees): "a call delivers the number of samples asked for unless the time runs out". Whatever
happened before, whatever the target, the generator and the recursion limit: a call that asks for more than `2^d`
samples and has not run out of time never returns. -/
theorem C101_refuted (dmin dmax : Pt K d) (hlt : ∀ i, dmin i < dmax i) (cfg : TPConfig K) (t : K)
    (ht : cfg.essTarget = some t) (ht1 : 1 < t) (target : Pt K d → XF K) (fuel : ℕ) (S0 S : TPSampler K d)
    (h0 : TPSampler.new dmin dmax = .ok S0) (cs : List (TPMixCall K d))
    (h : S0.callsMix cfg dmin dmax target fuel cs = .ok S)
    (c : TPMixCall K d) (hn : 2 ^ d < c.n) (hlate : ∀ it ∈ c.its, it.late = false) :
    ∀ S' out, TPSampler.importanceSampleMix cfg dmin dmax target fuel c S ≠ .ok (S', some out) := by
  intro S' out hcall
  obtain ⟨e, he, m⟩ := TPSampler.callsMix_tree hlt cs (by omega) (TPSampler.new_mixTree h0) h
  obtain ⟨⟨e', he', R, _, r'⟩, hx⟩ := TPSampler.callMix_tree hlt he m hcall
  obtain ⟨_, S1, o1, I1, hT, ho1, hn1⟩ := hx out rfl
  rcases hn1 with hn1 | ⟨it, hit, hl⟩
  · rw [ht] at ho1
    have h1 := (getSamples_leaves I1 ht1 ho1).2
    have h2 : S'.T.leaves = S1.T.leaves := by rw [hT]; exact (selfNormalize_same I1).leaves
    have h3 := r'.nLeaves
    rw [h2, ← h1] at h3
    have hp : 0 < 2 ^ d := by positivity
    have : e' * (2 ^ d - 1) ≤ 1 * (2 ^ d - 1) := Nat.mul_le_mul_right _ he'
    omega
  · rw [hlate it hit] at hl
    cases hl

/-- C101 (how it fails): the first call on a new sampler that asks for more than `2^d` samples raises
RecursionError in its second iteration, for every finite target and every recursion limit. -/
theorem C101_refuted_error (dmin dmax : Pt K d) (hlt : ∀ i, dmin i < dmax i) (cfg : TPConfig K) (t : K)
    (ht : cfg.essTarget = some t) (ht1 : 1 < t) (hm : cfg.nMin ≤ 1) (target : Pt K d → XF K)
    (hfin : ∀ x, ∃ v, target x = XF.fin v) (fuel : ℕ) (S0 : TPSampler K d)
    (h0 : TPSampler.new dmin dmax = .ok S0) (n : ℕ) (hn : 2 ^ d < n) (u0 : Pt K d) (hu : ∀ i, 0 < u0 i ∧ u0 i < 1)
    (it1 it2 : TPMixIter K d) (rest : List (TPMixIter K d)) (hlate : it1.late = false) :
    TPSampler.importanceSampleMix cfg dmin dmax target (fuel + 1) ⟨n, u0, it1 :: it2 :: rest⟩ S0 = .error .runtime := by
  obtain ⟨R, hR, hRb, b⟩ := TPSampler.new_blank' hlt h0
  choose π hπ using hfin
  have hp : 1 ≤ 2 ^ d := Nat.one_le_two_pow
  obtain ⟨_, _, _, _, _, _, _, _, _, _, h⟩ := TPSampler.callMix_first hπ ht ht1 hm hlt hR hRb b (nS := n) (by omega) fuel hu it1
    (it2 :: rest) (fun _ => True) trivial (fun _ => trivial) (fun _ _ _ _ _ => trivial)
  exact h hn hlate (by simp)

/-- C101 (the part that holds): the first call on a new sampler that asks for 2 up to `2^d` samples returns after one
iteration, with `2^d` samples and as many weights; a later call that asks for no more than that returns the samples held at
once, whatever iterations it is offered. -/
theorem C101_partial (dmin dmax : Pt K d) (hlt : ∀ i, dmin i < dmax i) (cfg : TPConfig K) (t : K)
    (ht : cfg.essTarget = some t) (ht1 : 1 < t) (target : Pt K d → XF K) (fuel : ℕ) (S0 : TPSampler K d)
    (h0 : TPSampler.new dmin dmax = .ok S0) :
    (∀ (n : ℕ), 2 ≤ n → n ≤ 2 ^ d → cfg.nMin ≤ 1 → (∀ x, ∃ v, target x = XF.fin v) →
      ∀ (u0 : Pt K d), (∀ i, 0 < u0 i ∧ u0 i < 1) → ∀ (it : TPMixIter K d) (rest : List (TPMixIter K d)),
      ∃ S' xs ws, TPSampler.importanceSampleMix cfg dmin dmax target (fuel + 1) ⟨n, u0, it :: rest⟩ S0
        = .ok (S', some (xs, ws)) ∧ xs.length = 2 ^ d ∧ ws.length = 2 ^ d) ∧
    (∀ (cs : List (TPMixCall K d)) (S : TPSampler K d), S0.callsMix cfg dmin dmax target fuel cs = .ok S →
      1 < S.T.leaves.length → ∀ c : TPMixCall K d, c.n ≤ 2 ^ d →
      ∃ S' xs ws, TPSampler.importanceSampleMix cfg dmin dmax target fuel c S = .ok (S', some (xs, ws)) ∧
        xs = maskSelect S.T.leavesIdx S.T.samples ∧ xs.length = 2 ^ d ∧ ws.length = 2 ^ d) := by
  have hp : 1 ≤ 2 ^ d := Nat.one_le_two_pow
  constructor
  · intro n hn2 hn hm hfin u0 hu it rest
    obtain ⟨R, hR, hRb, b⟩ := TPSampler.new_blank' hlt h0
    choose π hπ using hfin
    obtain ⟨S2, S', r2, s2, _, _, _, _, _, h, _⟩ := TPSampler.callMix_first hπ ht ht1 hm hlt hR hRb b (nS := n) (by omega) fuel hu
      it rest (fun _ => True) trivial (fun _ => trivial) (fun _ _ _ _ _ => trivial)
    obtain ⟨Sf, h1, h2⟩ := h hn
    have r' := r2.same s2
    have rf : Reached (fun i => (dmin i + dmax i) / 2) R Sf.T 1 := by rw [h2]; exact r'.same (selfNormalize_same r'.wf)
    have := getSamples_leaves rf.wf ht1 (TPSampler.getSamples_gt ht1)
    have hL := rf.nLeaves
    simp only at this
    exact ⟨Sf, _, _, h1, by omega, by omega⟩
  · intro cs S h hL c hn
    obtain ⟨e, he, R, hRb, r⟩ := TPSampler.callsMix_tree hlt cs (by omega) (TPSampler.new_mixTree h0) h
    have hLe := r.nLeaves
    have he1 : e = 1 := by
      rcases Nat.le_one_iff_eq_zero_or_eq_one.1 he with rfl | rfl
      · omega
      · rfl
    subst he1
    have hinit : TPSampler.initRootMix target c.u0 S = .ok S := by
      rcases r.inner with h0' | ⟨root, hroot, hleaf⟩
      · omega
      · have hdel : root.histDeleted = true := r.wf.del 0 root hroot (by simpa [TPNode.isLeaf] using hleaf)
        unfold TPSampler.initRootMix
        simp [hroot, hdel]
    have hg := TPSampler.getSamples_gt (T := S.T) ht1
    have hlen := getSamples_leaves r.wf ht1 hg
    simp only at hlen
    have hend : TPSampler.loopMix cfg dmin dmax target fuel c.n false c.its S = .ok (S, true) := by
      cases c.its with
      | nil =>
        simp only [TPSampler.loopMix, ht, hg, bind, Except.bind, pure, Except.pure]
        rw [hlen.2, hLe]
        have : ¬ (1 + 1 * (2 ^ d - 1) < c.n) := by omega
        simp only [this, false_and, not_false_eq_true, decide_true]
      | cons a l =>
        simp only [TPSampler.loopMix, ht, hg, bind, Except.bind, pure, Except.pure]
        rw [if_neg (by omega)]
    obtain ⟨Sf, hf1, hf2⟩ := TPSampler.updateModel_ok r.wf
    have rf : Reached (fun i => (dmin i + dmax i) / 2) R Sf.T 1 := by rw [hf2]; exact r.same (selfNormalize_same r.wf)
    have hlf := getSamples_leaves rf.wf ht1 (TPSampler.getSamples_gt ht1)
    have hLf := rf.nLeaves
    simp only at hlf
    refine ⟨Sf, _, _, ?_, ?_, by rw [hlf.1]; omega, by rw [hlf.2]; omega⟩
    · unfold TPSampler.importanceSampleMix
      simp only [hinit, hend, bind, Except.bind, if_true, hf1, ht, TPSampler.getSamples_gt ht1, pure, Except.pure]
    · rw [hf2]
      unfold selfNormalize
      simp only
      split_ifs <;> rfl

/-- C102 (code disagrees): "each returned weight is the target density over the density of the mixture the sample was
drawn from". For every positive finite target, every box, every generator output, a first call for 2 up to `2^d` samples
without leaf resampling returns: no weight is a positive finite number, and at least one is NaN. -/
theorem C102_refuted (dmin dmax : Pt K d) (hlt : ∀ i, dmin i < dmax i) (cfg : TPConfig K) (t : K)
    (ht : cfg.essTarget = some t) (ht1 : 1 < t) (hm : cfg.nMin ≤ 1) (hres : cfg.leafResampling = false)
    (target : Pt K d → XF K) (hpos : ∀ x, ∃ v, 0 < v ∧ target x = XF.fin v) (fuel : ℕ) (S0 : TPSampler K d)
    (h0 : TPSampler.new dmin dmax = .ok S0) (n : ℕ) (hn2 : 2 ≤ n) (hn : n ≤ 2 ^ d) (u0 : Pt K d)
    (hu : ∀ i, 0 < u0 i ∧ u0 i < 1) (it : TPMixIter K d) (rest : List (TPMixIter K d)) :
    ∃ S' xs ws, TPSampler.importanceSampleMix cfg dmin dmax target (fuel + 1) ⟨n, u0, it :: rest⟩ S0
        = .ok (S', some (xs, ws)) ∧ xs.length = 2 ^ d ∧ ws.length = 2 ^ d ∧
      (∀ w ∈ ws, w = XF.fin 0 ∨ w = XF.nan) ∧ XF.nan ∈ ws := by
  obtain ⟨R, hR, hRb, b⟩ := TPSampler.new_blank' hlt h0
  choose π hπ0 hπ using hpos
  have hp : 1 ≤ 2 ^ d := Nat.one_le_two_pow
  have dpos : ∀ x, target x / XF.fin 0 = XF.pinf := by
    intro x
    rw [hπ, XF.fin_div]
    simp [XF.infMul, hπ0 x]
  obtain ⟨S2, S', r2, s2, hlv, _, _, hA, _, h, _⟩ := TPSampler.callMix_first hπ ht ht1 hm hlt hR hRb b (nS := n) (by omega) fuel hu
    it rest (fun w => w = XF.fin 0 ∨ w = XF.pinf) (Or.inl rfl) (fun x => Or.inr (dpos x)) (by
      intro w x b hw hb
      rcases hw with rfl | rfl
      · right
        rw [XF.fin_div_ne _ _ hb.ne', zero_div]
        exact dpos x
      · left
        have : (XF.pinf / XF.fin b : XF K) = XF.pinf := by
          show XF.div XF.pinf (XF.fin b) = _
          simp [XF.div, not_lt.2 hb.le]
        rw [this, hπ]; rfl)
  obtain ⟨Sf, h1, h2⟩ := h hn
  obtain ⟨rfl, hw, x1, hw1⟩ := hA hres
  rw [dpos] at hw1
  have rf : Reached (fun i => (dmin i + dmax i) / 2) R Sf.T 1 := by rw [h2]; exact r2.same (selfNormalize_same r2.wf)
  have hlen := getSamples_leaves rf.wf ht1 (TPSampler.getSamples_gt ht1)
  have hL := rf.nLeaves
  simp only at hlen
  -- the leaf weights, as a function of the leaf
  have hw' : ∀ p, ∃ w, p ∈ S'.T.leaves → S'.T.weights[p]? = some w ∧ (w = XF.fin 0 ∨ w = XF.pinf) := by
    intro p
    by_cases hp : p ∈ S'.T.leaves
    · obtain ⟨w, hw⟩ := hw p hp
      exact ⟨w, fun _ => hw⟩
    · exact ⟨XF.nan, fun h => absurd h hp⟩
  choose W hW using hw'
  have h1mem : 1 ∈ S'.T.leaves := (hlv 1).2 ⟨le_refl _, by omega⟩
  have hW1 : W 1 = XF.pinf := by
    have := (hW 1 h1mem).1
    rw [hw1] at this
    simpa using this.symm
  have hsum : (maskSelect S'.T.leavesIdx S'.T.weights).sum = XF.pinf := by
    rw [(r2.wf.maskSelect_perm S'.T.weights r2.wf.lenW W (fun p hp => (hW p hp).1)).sum_eq]
    have key : ∀ l : List ℕ, (∀ p ∈ l, W p = XF.fin 0 ∨ W p = XF.pinf) →
        ((l.map W).sum = XF.fin 0 ∨ (l.map W).sum = XF.pinf) ∧ (1 ∈ l → (l.map W).sum = XF.pinf) := by
      intro l
      induction l with
      | nil => intro _; exact ⟨Or.inl rfl, by simp⟩
      | cons a l ih =>
        intro hl
        obtain ⟨i1, i2⟩ := ih fun p hp => hl p (by simp [hp])
        have ha := hl a (by simp)
        simp only [List.map_cons, List.sum_cons]
        have e1 : (XF.pinf + XF.fin 0 : XF K) = XF.pinf := rfl
        have e2 : (XF.pinf + XF.pinf : XF K) = XF.pinf := rfl
        have e3 : (XF.fin 0 + XF.pinf : XF K) = XF.pinf := rfl
        constructor
        · rcases ha with ha | ha <;> rcases i1 with i1 | i1 <;> rw [ha, i1] <;> simp [e1, e2, e3]
        · intro hmem
          rcases List.mem_cons.1 hmem with h | h
          · rw [← h, hW1]
            rcases i1 with i1 | i1 <;> rw [i1] <;> simp [e1, e2]
          · rw [i2 h]
            rcases ha with ha | ha <;> rw [ha] <;> simp [e2, e3]
    exact (key S'.T.leaves fun p hp => (hW p hp).2).2 h1mem
  have hSf : ∀ p ∈ S'.T.leaves, Sf.T.weights[p]? = some (W p / XF.pinf) := by
    intro p hp
    rw [h2]
    unfold selfNormalize
    simp only [hsum]
    rw [if_pos (show XF.ltb (XF.fin (0 : K)) XF.pinf = true from rfl)]
    simp only [maskUpdate, List.getElem?_map]
    have hz : (S'.T.weights.zipIdx.zip S'.T.leavesIdx)[p]? = some ((W p, p), true) := by
      rw [List.getElem?_zip_eq_some]
      refine ⟨?_, (r2.wf.mask_iff p).2 hp⟩
      rw [List.getElem?_zipIdx, (hW p hp).1]
      simp
    rw [hz]; rfl
  have hLeq : Sf.T.leaves = S'.T.leaves := by rw [h2]; exact (selfNormalize_same r2.wf).leaves
  have hperm := rf.wf.maskSelect_perm Sf.T.weights rf.wf.lenW (fun p => W p / XF.pinf) (fun p hp => hSf p (by rw [← hLeq]; exact hp))
  refine ⟨Sf, _, _, h1, by omega, by omega, ?_, ?_⟩
  · intro w hwm
    rw [hperm.mem_iff, List.mem_map] at hwm
    obtain ⟨p, hp, rfl⟩ := hwm
    rw [hLeq] at hp
    rcases (hW p hp).2 with h | h
    · left; rw [h]; rfl
    · right; rw [h]; rfl
  · rw [hperm.mem_iff, List.mem_map]
    exact ⟨1, by rw [hLeq]; exact h1mem, by rw [hW1]; rfl⟩

/-- C102 (code disagrees, in the phase where only the root is sampled, effective sample size target below 1/2). The
three samples of a first call are drawn from the same uniform density `1/V` on the cube of side `2R` and volume
`V = (2R)^d`. The first two weights are `π V`; the third one is `π(x3)/π(x2)`, so it is wrong whenever `π(x2) V ≠ 1`. -/
theorem C102_refuted_root (dmin dmax : Pt K d) (hlt : ∀ i, dmin i < dmax i) (cfg : TPConfig K) (t : K)
    (ht : cfg.essTarget = some t) (ht0 : 0 ≤ t) (ht1 : 2 * t < 1) (hres : cfg.leafResampling = false)
    (target : Pt K d → XF K) (π : Pt K d → K) (hπ0 : ∀ x, 0 < π x) (hπ : ∀ x, target x = XF.fin (π x)) (fuel : ℕ)
    (S0 : TPSampler K d) (h0 : TPSampler.new dmin dmax = .ok S0) (u0 : Pt K d)
    (hu : ∀ i, 0 < u0 i ∧ u0 i < 1) (it1 it2 : TPMixIter K d) (h1 : ∀ i, 0 < it1.draw 0 i ∧ it1.draw 0 i < 1)
    (h2 : ∀ i, 0 < it2.draw 0 i ∧ it2.draw 0 i < 1) (hl1 : it1.late = false) :
    ∃ R : K, 0 < R ∧ (∀ i, (dmax i - dmin i) / 2 ≤ R) ∧
    ∃ S' x1 x2 x3, TPSampler.importanceSampleMix cfg dmin dmax target (fuel + 1) ⟨3, u0, [it1, it2]⟩ S0
        = .ok (S', some ([x1, x2, x3], [XF.fin (π x1 * (2 * R) ^ d), XF.fin (π x2 * (2 * R) ^ d), XF.fin (π x3 / π x2)])) ∧
      (∀ x ∈ [x1, x2, x3], ∀ i, (dmin i + dmax i) / 2 - R < x i ∧ x i < (dmin i + dmax i) / 2 + R) ∧
      (π x2 * (2 * R) ^ d ≠ 1 → π x3 / π x2 ≠ π x3 * (2 * R) ^ d) := by
  obtain ⟨R, hR, hRb, b⟩ := TPSampler.new_blank' hlt h0
  have hV : (0 : K) < (2 * R) ^ d := by positivity
  obtain ⟨Sa, n1, x1, e1, r1, sb1, hn1, hc1, hw1, _, hx1, hwt1⟩ := TPSampler.initRootMix_blank hπ hR b hu
  have p1 : 0 < π x1 * (2 * R) ^ d := mul_pos (hπ0 _) hV
  obtain ⟨Sb, n2, x2, e2, r2, sb2, hn2, hc2, hw2, hwt2, hx2⟩ := TPSampler.iterateMix_root (dmin := dmin) (dmax := dmax) hπ ht hres hR r1 sb1 hn1
    (ws := [π x1 * (2 * R) ^ d]) hc1 hw1 rfl (by simp) (by simpa using p1) (by simp; linarith) one_pos (hwt1 (hπ0 _))
    (nS := 3) (hv := 1) (by omega) fuel it1 h1
  rw [div_one] at hw2 hwt2
  have p2 : 0 < π x2 * (2 * R) ^ d := mul_pos (hπ0 _) hV
  obtain ⟨Sc, n3, x3, e3, r3, sb3, hn3, hc3, hw3, hwt3, hx3⟩ := TPSampler.iterateMix_root (dmin := dmin) (dmax := dmax) hπ ht hres hR r2 sb2 hn2
    (ws := [π x1 * (2 * R) ^ d] ++ [π x2 * (2 * R) ^ d]) hc2 hw2 rfl (by simp)
    (by intro w hw; simp only [List.cons_append, List.nil_append, List.mem_cons, List.not_mem_nil, or_false] at hw
        rcases hw with rfl | rfl <;> assumption)
    (by simp; linarith) p2 hwt2 (nS := 3) (hv := 2) (by omega) fuel it2 h2
  have e : π x3 * (2 * R) ^ d / (π x2 * (2 * R) ^ d) = π x3 / π x2 := mul_div_mul_right _ _ hV.ne'
  rw [e] at hw3
  have p3 : 0 < π x3 / π x2 := div_pos (hπ0 _) (hπ0 _)
  have ht' : t ≤ 1 := by linarith
  have g1 := TPSampler.getSamples_one r1 hn1 (ws := [π x1 * (2 * R) ^ d]) hc1 hw1 rfl (by simpa using p1) ht'
  have g2 := TPSampler.getSamples_one r2 hn2 hc2 hw2 rfl (by
    intro w hw; simp only [List.cons_append, List.nil_append, List.mem_cons, List.not_mem_nil, or_false] at hw
    rcases hw with rfl | rfl <;> assumption) ht'
  obtain ⟨Sd, e4, e5⟩ := TPSampler.updateModel_ok r3.wf
  have r4 : Reached (fun i => (dmin i + dmax i) / 2) R Sd.T 0 := by rw [e5]; exact r3.same (selfNormalize_same r3.wf)
  have hn4 : Sd.T.nodes[0]? = some n3 := by
    rw [e5, ← hn3]
    unfold selfNormalize
    simp only
    split_ifs <;> rfl
  have pw : ∀ w ∈ [π x1 * (2 * R) ^ d] ++ [π x2 * (2 * R) ^ d] ++ [π x3 / π x2], 0 < w := by
    intro w hw
    simp only [List.cons_append, List.nil_append, List.mem_cons, List.not_mem_nil, or_false] at hw
    rcases hw with rfl | rfl | rfl <;> assumption
  have g3 := TPSampler.getSamples_one r3 hn3 hc3 hw3 rfl pw ht'
  have g4 := TPSampler.getSamples_one r4 hn4 hc3 hw3 rfl pw ht'
  refine ⟨R, hR, hRb, Sd, x1, x2, x3, ?_, ?_, ?_⟩
  · unfold TPSampler.importanceSampleMix
    have hloop : TPSampler.loopMix cfg dmin dmax target (fuel + 1) 3 false [it1, it2] Sa = .ok (Sc, true) := by
      simp only [TPSampler.loopMix, ht, g1, bind, Except.bind, List.length_map, List.length_singleton]
      rw [if_pos (by simp)]
      simp only [e2, g2, List.length_map, List.length_append, List.length_singleton, hl1]
      rw [if_pos (by simp)]
      simp only [Nat.reduceAdd, e3, g3]
      simp [pure, Except.pure]
    simp only [e1, bind, Except.bind, hloop, if_true, e4, ht, g4, pure, Except.pure]
    rfl
  · intro x hx
    simp only [List.mem_cons, List.not_mem_nil, or_false] at hx
    rcases hx with rfl | rfl | rfl <;> assumption
  · intro hne heq
    apply hne
    rw [div_eq_iff (hπ0 x2).ne'] at heq
    have := hπ0 x3
    have h3 : π x3 * (π x2 * (2 * R) ^ d) = π x3 * 1 := by rw [mul_one]; linarith
    exact mul_left_cancel₀ this.ne' h3

theorem maskSelect_map_eq {α β : Type*} (f : α → β) : ∀ (m : List Bool) (l : List α) (l' : List β), l.length = l'.length →
    (∀ i : ℕ, m[i]? = some true → l'[i]? = (l[i]?).map f) → maskSelect m l' = (maskSelect m l).map f
  | [], _, _, _, _ => by simp [maskSelect]
  | _ :: _, [], [], _, _ => by simp [maskSelect]
  | _ :: _, [], _ :: _, h, _ => by simp at h
  | _ :: _, _ :: _, [], h, _ => by simp at h
  | true :: m, a :: l, b :: l', h, hi => by
    have h0 := hi 0 rfl
    simp only [List.getElem?_cons_zero, Option.map_some, Option.some.injEq] at h0
    simp only [maskSelect, List.map_cons, h0]
    rw [maskSelect_map_eq f m l l' (by simpa using h) (fun i h => by simpa using hi (i + 1) (by simpa using h))]
  | false :: m, a :: l, b :: l', h, hi => by
    simp only [maskSelect]
    exact maskSelect_map_eq f m l l' (by simpa using h) (fun i h => by simpa using hi (i + 1) (by simpa using h))

/-- C102 (the part that holds): with leaf resampling the weights of the first call are correct for stratified sampling:
the cube around the space is halved in every dimension, each of the `2^d` cells of equal volume holds one sample, and
the weight of a sample is its share of the target values. -/
theorem C102_partial (dmin dmax : Pt K d) (hlt : ∀ i, dmin i < dmax i) (cfg : TPConfig K) (t : K)
    (ht : cfg.essTarget = some t) (ht1 : 1 < t) (hm : cfg.nMin ≤ 1) (hres : cfg.leafResampling = true)
    (target : Pt K d → XF K) (π : Pt K d → K) (hπ0 : ∀ x, 0 < π x) (hπ : ∀ x, target x = XF.fin (π x)) (fuel : ℕ)
    (S0 : TPSampler K d) (h0 : TPSampler.new dmin dmax = .ok S0) (n : ℕ) (hn2 : 2 ≤ n) (hn : n ≤ 2 ^ d) (u0 : Pt K d)
    (hu : ∀ i, 0 < u0 i ∧ u0 i < 1) (it : TPMixIter K d) (hit : ∀ p i, 0 ≤ it.redraw p i ∧ it.redraw p i < 1)
    (rest : List (TPMixIter K d)) :
    ∃ R : K, (∀ i, (dmax i - dmin i) / 2 ≤ R) ∧
    ∃ S' xs ws, TPSampler.importanceSampleMix cfg dmin dmax target (fuel + 1) ⟨n, u0, it :: rest⟩ S0
        = .ok (S', some (xs, ws)) ∧
      (∃ ys, xs.Perm ys ∧ List.Forall₂ (fun (y s : Pt K d) => ∀ i, (dmin i + dmax i) / 2 + R / 2 * s i - R / 2 ≤ y i ∧
        y i < (dmin i + dmax i) / 2 + R / 2 * s i + R / 2) ys (signVecs d)) ∧
      ws = xs.map fun x => XF.fin (π x / (xs.map π).sum) := by
  obtain ⟨R, hR, hRb, b⟩ := TPSampler.new_blank' hlt h0
  refine ⟨R, hRb, ?_⟩
  have hp : 1 ≤ 2 ^ d := Nat.one_le_two_pow
  obtain ⟨S2, S', r2, s2, hlv, hbox, hlb, _, hB, h, _⟩ := TPSampler.callMix_first hπ ht ht1 hm hlt hR hRb b (nS := n) (by omega)
    fuel hu it rest (fun _ => True) trivial (fun _ => trivial) (fun _ _ _ _ _ => trivial)
  obtain ⟨Sf, h1, h2⟩ := h hn
  obtain ⟨hS, hW⟩ := hB hres
  have r' := r2.same s2
  have rf : Reached (fun i => (dmin i + dmax i) / 2) R Sf.T 1 := by rw [h2]; exact r'.same (selfNormalize_same r'.wf)
  set T := S2.T with hT
  set A := T.resampleArrays target it.redraw with hA
  have sA := resampleArrays_same r2.wf target it.redraw
  have IA := sA.inv r2.wf
  set Y : ℕ → Pt K d := fun p => reSample (it.redraw p) (T.box p).1 (T.box p).2 with hY
  have hRd : (0 : K) < (2 * (R / 2)) ^ d := by positivity
  have hAw : ∀ p ∈ A.leaves, A.weights[p]? = some (XF.fin (π (Y p) * (2 * (R / 2)) ^ d)) := by
    intro p hp
    rw [sA.leaves] at hp
    rw [(resampleArrays_leaf r2.wf it.redraw hp).2, hπ, hbox p hp, XF.fin_div_ne _ _ hRd.ne',
      XF.fin_div_ne _ _ (by positivity)]
    congr 2
    have : (T.box p).2 = R / 2 := hbox p hp
    simp only [hY, this]
    field_simp
  have hLne : T.leaves ≠ [] := by
    intro h0
    have := r2.nLeaves
    rw [h0, List.length_nil] at this
    omega
  have sumpos : ∀ (l : List ℕ) (f : ℕ → K), l ≠ [] → (∀ p, 0 < f p) → 0 < (l.map f).sum := by
    intro l f hl hf
    exact List.sum_pos _ (by intro x hx; obtain ⟨p, _, rfl⟩ := List.mem_map.1 hx; exact hf p) (by simpa using hl)
  have hAs : 0 < (A.leaves.map fun p => π (Y p) * (2 * (R / 2)) ^ d).sum := by
    apply sumpos
    · rw [sA.leaves]; exact hLne
    · intro p; have := hπ0 (Y p); positivity
  have hN := selfNormalize_weights IA _ hAw hAs
  set Z := (T.leaves.map fun p => π (Y p)).sum with hZ
  have hZpos : 0 < Z := sumpos _ _ hLne (fun p => hπ0 _)
  have hZA : (A.leaves.map fun p => π (Y p) * (2 * (R / 2)) ^ d).sum = Z * (2 * (R / 2)) ^ d := by
    rw [sA.leaves, hZ, List.sum_map_mul_right]
  have hN' : ∀ p ∈ S'.T.leaves, S'.T.weights[p]? = some (XF.fin (π (Y p) / Z)) := by
    intro p hp
    rw [s2.leaves] at hp
    rw [hW, hN p (by rw [sA.leaves]; exact hp), hZA]
    congr 2
    field_simp
  have hN1 : (S'.T.leaves.map fun p => π (Y p) / Z).sum = 1 := by
    have : (S'.T.leaves.map fun p => π (Y p) / Z) = S'.T.leaves.map fun p => π (Y p) * (1 / Z) := by
      apply List.map_congr_left; intro p _; rw [mul_one_div]
    rw [this, List.sum_map_mul_right, s2.leaves, ← hZ]
    field_simp
  have hF := selfNormalize_weights r'.wf _ hN' (by rw [hN1]; exact one_pos)
  rw [hN1] at hF
  have hFs : ∀ p ∈ T.leaves, Sf.T.samples[p]? = some (Y p) := by
    intro p hp
    have : Sf.T.samples = S'.T.samples := by
      rw [h2]
      unfold selfNormalize
      simp only
      split_ifs <;> rfl
    rw [this, hS, (resampleArrays_leaf r2.wf it.redraw hp).1]
  have hFw : ∀ p ∈ T.leaves, Sf.T.weights[p]? = some (XF.fin (π (Y p) / Z)) := by
    intro p hp
    rw [h2, hF p (by rw [s2.leaves]; exact hp), div_one]
  have hLf : Sf.T.leaves = T.leaves := by rw [h2, (selfNormalize_same r'.wf).leaves, s2.leaves]
  have hperm := rf.wf.maskSelect_perm Sf.T.samples rf.wf.lenS Y (fun p hp => hFs p (by rw [← hLf]; exact hp))
  rw [hLf] at hperm
  have hsum : ((maskSelect Sf.T.leavesIdx Sf.T.samples).map π).sum = Z := by
    rw [(hperm.map π).sum_eq, List.map_map]; rfl
  refine ⟨Sf, _, _, h1, ⟨_, hperm, ?_⟩, ?_⟩
  · have hF2 : ∀ (l : List ℕ) (m : List (Pt K d)),
        l.map T.box = (m.map fun s => (fun i => (dmin i + dmax i) / 2 + R / 2 * s i, R / 2)) →
        List.Forall₂ (fun (y s : Pt K d) => ∀ i, (dmin i + dmax i) / 2 + R / 2 * s i - R / 2 ≤ y i ∧
          y i < (dmin i + dmax i) / 2 + R / 2 * s i + R / 2) (l.map Y) m := by
      intro l
      induction l with
      | nil =>
        intro m hm
        cases m with
        | nil => exact List.Forall₂.nil
        | cons a m => simp at hm
      | cons p l ih =>
        intro m hm
        cases m with
        | nil => simp at hm
        | cons a m =>
          simp only [List.map_cons, List.cons.injEq] at hm
          refine List.Forall₂.cons ?_ (ih m hm.2)
          intro i
          have hi := hit p i
          simp only [hY, hm.1, reSample]
          constructor <;> nlinarith
    exact hF2 _ _ hlb
  · rw [hsum]
    apply maskSelect_map_eq
    · rw [rf.wf.lenS, rf.wf.lenW]
    · intro p hp
      have hp' : p ∈ T.leaves := by rw [← hLf]; exact (rf.wf.mask_iff p).1 hp
      rw [hFs p hp', hFw p hp']
      rfl

/-- A run on the interval [0, 1] with target `1 + x`: `n` samples, two iterations, with or without resampling. -/
def tpMixDemo (t : ℚ) (res : Bool) (n : ℕ) : Except PyErr (Option (List (XF ℚ))) :=
  let it : TPMixIter ℚ 1 := ⟨fun _ _ _ => true, fun _ => ![1/2], fun _ _ _ => true, fun _ => ![1/3], fun _ => ![1/4], false⟩
  match TPSampler.new (K := ℚ) (d := 1) ![0] ![1] with
  | .error e => .error e
  | .ok S => (TPSampler.importanceSampleMix ⟨some t, 1, 1, res⟩ ![0] ![1] (fun x => XF.fin (1 + max 0 (x 0))) 50
      ⟨n, ![1/2], [it, it]⟩ S).map fun r => r.2.map fun o => o.2

/-- The hypotheses of `C101_refuted` and `C101_refuted_error` are met: three samples on an interval. -/
example : (TPSampler.new (K := ℚ) (d := 1) ![0] ![1]).isOk = true ∧ (∀ i : Fin 1, (![0] i : ℚ) < ![1] i) ∧
    (∀ i : Fin 1, (0 : ℚ) < ![1/2] i ∧ (![1/2] i : ℚ) < 1) ∧ (∀ x : ℚ, 0 < 1 + max 0 x) ∧
    tpMixDemo 2 false 3 = .error .runtime := by
  refine ⟨rfl, ?_, ?_, ?_, by decide +kernel⟩
  · intro i; fin_cases i; decide +kernel
  · intro i; fin_cases i; decide +kernel
  · intro x; have := le_max_left (0 : ℚ) x; linarith

/-- A first call within the limits of `C101_partial` and `C102_refuted`, the same with resampling (`C102_partial`), and the
root phase (`C102_refuted_root`). -/
example : tpMixDemo 2 false 2 = .ok (some [XF.nan, XF.fin 0]) ∧
    tpMixDemo 2 true 2 = .ok (some [XF.fin (9/22), XF.fin (13/22)]) ∧
    tpMixDemo (1/4) false 3 = .ok (some [XF.fin (3/2), XF.fin (4/3), XF.fin 1]) := by
  refine ⟨?_, ?_, ?_⟩ <;> decide +kernel

/-- A sampler that holds more than one leaf, as in the second part of `C101_partial`. -/
example : ∃ S0 S : TPSampler ℚ 1, TPSampler.new ![0] ![1] = .ok S0 ∧
    S0.callsMix ⟨some 2, 1, 1, false⟩ ![0] ![1] (fun _ => XF.fin 1) 50
      [⟨2, ![1/2], [⟨fun _ _ _ => true, fun _ => ![1/2], fun _ _ _ => true, fun _ => ![1/3], fun _ => ![1/4], false⟩]⟩] = .ok S ∧
    1 < S.T.leaves.length := by
  refine ⟨((TPSampler.new (K := ℚ) (d := 1) ![0] ![1]).toOption).get (by decide +kernel), ?_⟩
  have key : ∀ (e : Except PyErr (TPSampler ℚ 1)), (e.toOption.map fun S => decide (1 < S.T.leaves.length)) = some true →
      ∃ S, e = .ok S ∧ 1 < S.T.leaves.length := by
    intro e h
    cases e with
    | error => simp [Except.toOption] at h
    | ok S => exact ⟨S, rfl, by simpa [Except.toOption] using h⟩
  obtain ⟨S, h1, h2⟩ := key _ (by decide +kernel : ((((TPSampler.new (K := ℚ) (d := 1) ![0] ![1]).toOption).get (by decide +kernel)).callsMix
    ⟨some 2, 1, 1, false⟩ ![0] ![1] (fun _ => XF.fin 1) 50
      [⟨2, ![1/2], [⟨fun _ _ _ => true, fun _ => ![1/2], fun _ _ _ => true, fun _ => ![1/3], fun _ => ![1/4], false⟩]⟩]).toOption.map
      (fun S => decide (1 < S.T.leaves.length)) = some true)
  exact ⟨S, rfl, h1, h2⟩

end Verif
