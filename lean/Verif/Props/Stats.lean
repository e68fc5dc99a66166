import Verif.Model.Stats
import Verif.Props.NESS
import Verif.Props.TPCost
import Verif.Props.TPWeights

/-!
# C140: the statistics of a tree pyramid sampler describe the samples it handed back
-/

set_option linter.unusedSectionVars false
set_option autoImplicit false

namespace Verif

variable {K : Type*} [Field K] [LinearOrder K] [IsStrictOrderedRing K] {d : ℕ}

namespace TPSampler

theorem finish_returned {cfg : TPConfig K} {r : TPSampler K d × Bool} {S : TPSampler K d}
    {out : List (Pt K d) × List (XF K)} (h : finish cfg r = .ok (S, some out)) :
    S.T.getSamples cfg.essTarget = .ok out := by
  unfold finish at h
  split_ifs at h
  · cases hu : r.1.updateModel with
    | error => simp [hu, Except.bind] at h
    | ok S2 =>
      simp only [hu, Except.bind] at h
      cases hg : S2.T.getSamples cfg.essTarget with
      | error => simp [hg, Except.map] at h
      | ok out' =>
        simp only [hg, Except.map, Except.ok.injEq, Prod.mk.injEq, Option.some.injEq] at h
        rw [← h.1, ← h.2]
        exact hg
  · simp at h

theorem bind_finish {α : Type*} {x : Except PyErr α} {f : α → Except PyErr (TPSampler K d × Bool)} {cfg : TPConfig K}
    {S : TPSampler K d} {out : List (Pt K d) × List (XF K)}
    (h : (x.bind fun a => (f a).bind (finish cfg)) = .ok (S, some out)) : S.T.getSamples cfg.essTarget = .ok out := by
  cases x with
  | error => simp [Except.bind] at h
  | ok a =>
    simp only [Except.bind] at h
    cases hf : f a with
    | error => simp [hf] at h
    | ok r =>
      rw [hf] at h
      exact finish_returned h

theorem simple_returned {cfg : TPConfig K} {target : Pt K d → XF K} {n : ℕ} {u0 : Pt K d} {its : List (TPIter K d)}
    {S S' : TPSampler K d} {out : List (Pt K d) × List (XF K)}
    (h : importanceSampleSimple cfg target n u0 its S = .ok (S', some out)) : S'.T.getSamples cfg.essTarget = .ok out := by
  rw [simple_eq] at h
  exact bind_finish h

theorem mix_returned {cfg : TPConfig K} {dmin dmax : Pt K d} {target : Pt K d → XF K} {fuel : ℕ} {c : TPMixCall K d}
    {S S' : TPSampler K d} {out : List (Pt K d) × List (XF K)}
    (h : importanceSampleMix cfg dmin dmax target fuel c S = .ok (S', some out)) :
    S'.T.getSamples cfg.essTarget = .ok out := by
  rw [mix_eq] at h
  exact bind_finish h

/-- **C140_partial** (the number of samples). After a call that returned, in any scheme and whatever happened before, the
statistics report as many samples as there are weights in what the call returned. -/
theorem C140_partial (cfg : TPConfig K) (dmin dmax : Pt K d) (target : Pt K d → XF K) (fuel n : ℕ) (u0 : Pt K d)
    (its : List (TPIter K d)) (c : TPMixCall K d) (S S' : TPSampler K d) (xs : List (Pt K d)) (ws : List (XF K))
    (h : importanceSampleSimple cfg target n u0 its S = .ok (S', some (xs, ws)) ∨
      importanceSampleMix cfg dmin dmax target fuel c S = .ok (S', some (xs, ws))) :
    ∃ st, S'.getStats cfg = .ok st ∧ st.nSamples = ws.length := by
  have hg : S'.T.getSamples cfg.essTarget = .ok (xs, ws) := h.elim simple_returned mix_returned
  exact ⟨⟨S'.numQ, S'.numQEvals, S'.numPi, ws.length, NESS.approx [] 0⟩, by
    simp [getStats, hg, bind, Except.bind, pure, Except.pure], rfl⟩

/-- **C140_partial** (the effective sample size). `get_NESS`, unlike the entry of the statistics, is a share: the target is
positive, the sampler has been called any number of times before (with leaf resampling), and the call returned `n` points:
the value is between `1/n` and 1, and 1 exactly when the returned weights are equal. -/
theorem C140_ness_partial {dmin dmax : Pt K d} (hlt : ∀ i, dmin i < dmax i) {R : K}
    (hR : IsGreatest (Set.range fun i => (dmax i - dmin i) / 2) R) (cfg : TPConfig K) {e : K}
    (he : cfg.essTarget = some e) (h1e : 1 < e) {S0 : TPSampler K d} (h0 : TPSampler.new dmin dmax = .ok S0)
    (t : Pt K d → K) (ht : ∀ x, 0 < t x) (cs : List (TPCall K d)) (hcs : ∀ x ∈ cs, x.Open)
    (hlr : cfg.leafResampling = true ∨ cs = []) {S : TPSampler K d}
    (hS : S0.calls cfg (fun x => XF.fin (t x)) cs = .ok S) (call : TPCall K d) (hc : call.Open) {S' : TPSampler K d}
    {xs : List (Pt K d)} {ws : List (XF K)} (hxs : xs ≠ [])
    (hi : S.importanceSampleSimple cfg (fun x => XF.fin (t x)) call.n call.u0 call.its = .ok (S', some (xs, ws))) :
    ∃ r : K, S'.getNESS cfg = .ok (XF.fin r) ∧ 1 / (xs.length : K) ≤ r ∧ r ≤ 1 ∧ (r = 1 ↔ ∀ v ∈ ws, ∀ w ∈ ws, v = w) := by
  obtain ⟨cells, h1, h2, _, h3, h4, h5⟩ := C119_partial hlt hR cfg he h1e h0 t (fun x => (ht x).le) cs hcs hlr hS call hc hi
  have hg : S'.T.getSamples cfg.essTarget = .ok (xs, ws) := simple_returned hi
  have hR0 : 0 < R := by
    obtain ⟨i, hi⟩ := hR.1
    rw [← hi]
    exact div_pos (sub_pos.2 (hlt i)) two_pos
  set m := List.zipWith (fun x b => t x * (2 * b.2) ^ d) xs cells with hm
  have hpos : ∀ w ∈ m, 0 < w := by
    intro w hw
    rw [hm, ← List.map_uncurry_zip_eq_zipWith, List.mem_map] at hw
    obtain ⟨⟨x, b⟩, hb, rfl⟩ := hw
    obtain ⟨k, hk⟩ := h3 b (List.of_mem_zip hb).2
    have : 0 < b.2 := by rw [hk]; positivity
    exact mul_pos (ht x) (by positivity)
  have hlen : m.length = xs.length := by rw [hm, List.length_zipWith, h1, min_self]
  have hm0 : m ≠ [] := by
    intro h
    rw [h] at hlen
    exact hxs (List.length_eq_zero_iff.1 hlen.symm)
  have hs : 0 < m.sum := List.sum_pos _ hpos hm0
  set ks := m.map fun w => w / m.sum with hks
  have hws : ws = ks.map XF.fin := by rw [h5, hks, List.map_map]; rfl
  have hkn : ∀ w ∈ ks, 0 ≤ w := by
    intro w hw
    rw [hks, List.mem_map] at hw
    obtain ⟨v, hv, rfl⟩ := hw
    exact (div_pos (hpos v hv) hs).le
  have hksum : 0 < ks.sum := by
    have : ks.sum = 1 := by
      have : (m.map fun w => w / m.sum).sum = (m.map fun w => w).sum * (m.sum)⁻¹ := by
        simp only [div_eq_mul_inv]
        exact List.sum_map_mul_right ..
      rw [hks, this, List.map_id', mul_inv_cancel₀ hs.ne']
    rw [this]; exact one_pos
  obtain ⟨r, _, q2, q3, q4, q5, _⟩ := C23_weight_ness ks hkn hksum
  have hkl : ks.length = xs.length := by rw [hks, List.length_map, hlen]
  refine ⟨r, ?_, by rw [← hkl]; exact q3, q4, ?_⟩
  · simp only [getNESS, hg, bind, Except.bind, pure, Except.pure, Except.ok.injEq]
    rw [hws, ← hkl]
    exact q2
  · rw [q5, hws]
    constructor
    · intro h v hv w hw
      rw [List.mem_map] at hv hw
      obtain ⟨v, hv, rfl⟩ := hv
      obtain ⟨w, hw, rfl⟩ := hw
      rw [h v hv w hw]
    · intro h v hv w hw
      have := h _ (List.mem_map_of_mem (f := XF.fin) hv) _ (List.mem_map_of_mem (f := XF.fin) hw)
      exact XF.fin.inj this

/-- The statistics and `get_NESS` after one call for two samples on `[-1, 1]`. -/
def statsDemo : Except PyErr (ℕ × XF ℚ × XF ℚ × Option (List (XF ℚ))) :=
  (new ![-1] ![1]).bind fun S0 =>
    (importanceSampleSimple ⟨some 2, 1, 1, true⟩ (fun x => XF.fin (2 + x 0)) 2 (fun _ => 1 / 2)
      [⟨fun _ _ => 1 / 4, fun _ _ => 1 / 2, false⟩] S0).bind fun r =>
    (r.1.getStats ⟨some 2, 1, 1, true⟩).bind fun st => (r.1.getNESS ⟨some 2, 1, 1, true⟩).map fun v =>
      (st.nSamples, st.ness, v, r.2.map Prod.snd)

theorem statsDemo_eq : statsDemo = .ok (2, .pinf, .fin (16 / 17), some [.fin (3 / 8), .fin (5 / 8)]) := by decide +kernel

/-- **C140_refuted** The effective sample size in the statistics is not a share of the samples: it is infinite for every
sampler in every state. In particular after a call that returned two points of weights 3/8 and 5/8, whose effective share is
16/17. -/
theorem C140_refuted :
    (∀ (cfg : TPConfig K) (S : TPSampler K d) (st : Stats K), S.getStats cfg = .ok st → st.ness = .pinf) ∧
    ∃ (cfg : TPConfig ℚ) (S0 S : TPSampler ℚ 1) (target : Pt ℚ 1 → XF ℚ) (n : ℕ) (u0 : Pt ℚ 1) (its : List (TPIter ℚ 1))
      (xs : List (Pt ℚ 1)) (st : Stats ℚ), new ![-1] ![1] = .ok S0 ∧
      importanceSampleSimple cfg target n u0 its S0 = .ok (S, some (xs, [.fin (3 / 8), .fin (5 / 8)])) ∧
      S.getStats cfg = .ok st ∧ st.ness = .pinf ∧ S.getNESS cfg = .ok (.fin (16 / 17)) := by
  constructor
  · intro cfg S st h
    unfold getStats at h
    cases hg : S.T.getSamples cfg.essTarget with
    | error => simp [hg, bind, Except.bind] at h
    | ok o =>
      simp only [hg, bind, Except.bind, pure, Except.pure, Except.ok.injEq] at h
      rw [← h]
      simp only [NESS.approx, List.map_nil, List.sum_nil, XF.zero_def, XF.one_def, XF.fin_div, XF.infMul, if_true,
        if_pos one_pos, Nat.cast_zero]
      show XF.div _ _ = _
      simp [XF.div]
  · have h := statsDemo_eq
    unfold statsDemo at h
    cases hn : new (![-1] : Pt ℚ 1) ![1] with
    | error e => simp [hn, Except.bind] at h
    | ok S0 =>
      simp only [hn, Except.bind] at h
      cases hr : importanceSampleSimple ⟨some 2, 1, 1, true⟩ (fun x => XF.fin (2 + x 0)) 2 (fun _ => 1 / 2)
          [⟨fun _ _ => 1 / 4, fun _ _ => 1 / 2, false⟩] S0 with
      | error e => rw [hr] at h; cases h
      | ok r =>
        simp only [hr] at h
        cases hs : r.1.getStats ⟨some 2, 1, 1, true⟩ with
        | error e => rw [hs] at h; cases h
        | ok st =>
          simp only [hs] at h
          cases hv : r.1.getNESS ⟨some 2, 1, 1, true⟩ with
          | error e => rw [hv] at h; cases h
          | ok v =>
            simp only [hv, Except.map, Except.ok.injEq, Prod.mk.injEq] at h
            obtain ⟨S, o⟩ := r
            obtain ⟨_, h2, h3, h4⟩ := h
            cases o with
            | none => simp at h4
            | some o =>
              obtain ⟨xs, ws⟩ := o
              simp only [Option.map_some, Option.some.injEq] at h4
              subst h4
              refine ⟨⟨some 2, 1, 1, true⟩, S0, S, _, 2, _, _, xs, st, rfl, hr, hs, h2, ?_⟩
              rw [hv, h3]

end TPSampler
end Verif
