import Verif.Proof.TPCache

/-!
# Property C119: weights of the tree pyramid over several calls
-/

set_option linter.unusedSectionVars false
set_option autoImplicit false

namespace Verif

open TPTree

variable {K : Type*} [Field K] [LinearOrder K] [IsStrictOrderedRing K] {d : ℕ}

namespace TPTree

theorem cells_weighted {t : Pt K d → K} {c : Pt K d} {R s : K} (hR : 0 < R) (hs : 0 < s) (ht : ∀ x, 0 ≤ t x)
    {T : TPTree K d} {e : ℕ} (r : Reached c R T e) (h : ∀ p ∈ T.leaves, Cached t s T p) :
    CellWeighted t c R (maskSelect T.selfNormalize.leavesIdx T.selfNormalize.samples)
      (maskSelect T.selfNormalize.leavesIdx T.selfNormalize.weights) := by
  obtain ⟨pt, hpt⟩ := Cached.normalize_full hR hs ht r h
  have same := selfNormalize_same r.wf
  set T' := T.selfNormalize with hT'
  have I : WF T' := same.inv r.wf
  have hlv : T'.leaves = T.leaves := same.leaves
  have hbox : ∀ p, T'.box p = T.box p := same.box
  have r' := r.same same
  have hlc : (T'.centers.zip T'.radii).length = T'.nodes.length := by
    rw [List.length_zip, I.centers, I.radii]; simp
  have hc : ∀ p ∈ T'.leaves, (T'.centers.zip T'.radii)[p]? = some (T'.box p) := by
    intro p hp
    obtain ⟨n, hn, _⟩ := I.leaf_node hp
    rw [List.getElem?_zip_eq_some, I.centers, I.radii, List.getElem?_map, List.getElem?_map, hn, box_node hn]
    simp
  have hsp : ∀ p ∈ T'.leaves, T'.samples[p]? = some (pt p) := fun p hp => (hpt p (by rw [← hlv]; exact hp)).2.1
  have pc := I.maskSelect_perm (T'.centers.zip T'.radii) hlc T'.box hc
  have hlen2 : T'.samples.length = (T'.centers.zip T'.radii).length := by rw [hlc, I.lenS]
  set Q := (T.leaves.map fun p => t (pt p) * (2 * (T.box p).2) ^ d).sum with hQ
  have hraw : List.zipWith (fun x b => t x * (2 * b.2) ^ d) (maskSelect T'.leavesIdx T'.samples)
      (maskSelect T'.leavesIdx (T'.centers.zip T'.radii))
      = maskSelect T'.leavesIdx (List.zipWith (fun x b => t x * (2 * b.2) ^ d) T'.samples (T'.centers.zip T'.radii)) :=
    zipWith_maskSelect _ _ _ _ hlen2
  have hrawp := I.maskSelect_perm (List.zipWith (fun x (b : Pt K d × K) => t x * (2 * b.2) ^ d) T'.samples
    (T'.centers.zip T'.radii)) (by rw [List.length_zipWith, hlc, I.lenS, min_self])
    (fun p => t (pt p) * (2 * (T'.box p).2) ^ d) (by
      intro p hp
      rw [List.getElem?_zipWith, hsp p hp, hc p hp])
  refine ⟨maskSelect T'.leavesIdx (T'.centers.zip T'.radii), ?_, ?_, ?_, ?_, ?_, ?_⟩
  · have ps := I.maskSelect_perm T'.samples I.lenS pt hsp
    rw [pc.length_eq, ps.length_eq, List.length_map, List.length_map]
  · intro x hx
    have hcnt := (r'.tiles hR.le).count x
    rw [if_pos hx, sum_ite_eq_countP] at hcnt
    rw [pc.countP_eq]
    exact hcnt
  · rw [(pc.map _).sum_eq]
    exact (r'.tiles hR.le).vol
  · intro b hb
    exact (r'.tiles hR.le).radii b (pc.mem_iff.1 hb)
  · intro e he
    have hz := zipWith_maskSelect Prod.mk T'.leavesIdx T'.samples (T'.centers.zip T'.radii) hlen2
    have hzp := I.maskSelect_perm (List.zipWith Prod.mk T'.samples (T'.centers.zip T'.radii))
      (by rw [List.length_zipWith, hlc, I.lenS, min_self]) (fun p => (pt p, T'.box p)) (by
        intro p hp
        rw [List.getElem?_zipWith, hsp p hp, hc p hp])
    rw [← hz] at hzp
    have he' : e ∈ List.zipWith Prod.mk (maskSelect T'.leavesIdx T'.samples)
        (maskSelect T'.leavesIdx (T'.centers.zip T'.radii)) := he
    obtain ⟨p, hp, rfl⟩ := List.mem_map.1 (hzp.mem_iff.1 he')
    rw [hlv] at hp
    simp only [hbox]
    exact (hpt p hp).1
  · have hsumQ : (List.zipWith (fun x (b : Pt K d × K) => t x * (2 * b.2) ^ d) (maskSelect T'.leavesIdx T'.samples)
        (maskSelect T'.leavesIdx (T'.centers.zip T'.radii))).sum = Q := by
      rw [hraw, hrawp.sum_eq, hQ, hlv]
      simp only [hbox]
    rw [hsumQ, hraw, ← maskSelect_mapped]
    apply maskSelect_congr
    · rw [List.length_map, List.length_zipWith, hlc, I.lenS, I.lenW, min_self]
    · intro i hi
      have hp := (I.mask_iff i).1 hi
      rw [List.getElem?_map, List.getElem?_zipWith, hsp i hp, hc i hp]
      rw [hlv] at hp
      rw [(hpt i hp).2.2, hbox]
      simp [hQ]

end TPTree

namespace TPSampler

theorem call_fair {cfg : TPConfig K} {t : Pt K d → K} (ht : ∀ x, 0 ≤ t x) {c : Pt K d} {R : K} (hR : 0 < R)
    {call : TPCall K d} (hc : call.Open) {S S' : TPSampler K d} {o : Option (List (Pt K d) × List (XF K))}
    (h : Blank c R S ∨ (cfg.leafResampling = true ∧ Fair cfg t c R S))
    (hi : importanceSampleSimple cfg (fun x => XF.fin (t x)) call.n call.u0 call.its S = .ok (S', o)) :
    (cfg.leafResampling = true → Fair cfg t c R S') ∧
    ∀ xs ws, o = some (xs, ws) → ∃ T e s, Reached c R T e ∧ 0 < s ∧ (∀ p ∈ T.leaves, Cached t s T p) ∧
      S'.T = T.selfNormalize ∧ T.selfNormalize.getSamples cfg.essTarget = .ok (xs, ws) := by
  unfold importanceSampleSimple at hi
  simp only [bind, Except.bind, pure, Except.pure] at hi
  cases h0 : initRoot (fun x => XF.fin (t x)) call.u0 S with
  | error e => simp [h0] at hi
  | ok S0 =>
    rw [h0] at hi
    simp only at hi
    have f0 : Fair cfg t c R S0 := by
      rcases h with h | ⟨_, h⟩
      · exact initRoot_fair cfg ht hR h hc.1 h0
      · rw [initRoot_ready _ h.ready h0]; exact h
    cases h1 : loop cfg (fun x => XF.fin (t x)) call.n false call.its S0 with
    | error e => simp [h1] at hi
    | ok r =>
      obtain ⟨S1, b⟩ := r
      rw [h1] at hi
      simp only at hi
      have f1 := loop_fair ht hR call.n call.its false S0 S1 b hc.2 f0 h1
      cases b with
      | false =>
        simp only [Bool.false_eq_true, if_false, Except.ok.injEq, Prod.mk.injEq] at hi
        obtain ⟨rfl, rfl⟩ := hi
        exact ⟨fun _ => f1, by simp⟩
      | true =>
        obtain ⟨S2, h2, r2, e2, _⟩ := updateModel_spec f1.ready
        simp only [if_true, h2] at hi
        cases h3 : S2.T.getSamples cfg.essTarget with
        | error e => simp [h3] at hi
        | ok out =>
          rw [h3] at hi
          simp only [Except.ok.injEq, Prod.mk.injEq] at hi
          obtain ⟨rfl, rfl⟩ := hi
          obtain ⟨e, hr⟩ := f1.ready.reached
          obtain ⟨s, hs, _, hcache⟩ := f1.cache
          refine ⟨fun hlr => ?_, ?_⟩
          · obtain ⟨s', hs', hc'⟩ := Cached.normalize hR hs ht hr hcache
            exact ⟨r2, s', hs', Or.inl hlr, by rw [e2]; exact hc'⟩
          · intro xs ws hx
            simp only [Option.some.injEq] at hx
            subst hx
            exact ⟨S1.T, e, s, hr, hs, hcache, e2, by rw [← e2]; exact h3⟩

theorem calls_fair {cfg : TPConfig K} {t : Pt K d → K} (ht : ∀ x, 0 ≤ t x) {c : Pt K d} {R : K} (hR : 0 < R)
    (hlr : cfg.leafResampling = true) : ∀ (cs : List (TPCall K d)) (S S' : TPSampler K d), (∀ x ∈ cs, x.Open) →
    (Blank c R S ∨ Fair cfg t c R S) → S.calls cfg (fun x => XF.fin (t x)) cs = .ok S' →
    Blank c R S' ∨ Fair cfg t c R S'
  | [], S, S', _, h, hc => by
    simp only [calls, List.foldlM_nil, pure, Except.pure, Except.ok.injEq] at hc
    rw [← hc]; exact h
  | x :: cs, S, S', hv, h, hc => by
    unfold calls at hc
    rw [List.foldlM_cons] at hc
    cases h1 : importanceSampleSimple cfg (fun x => XF.fin (t x)) x.n x.u0 x.its S with
    | error e => simp [h1, Except.map, bind, Except.bind] at hc
    | ok r =>
      obtain ⟨S1, o⟩ := r
      simp only [h1, Except.map, bind, Except.bind] at hc
      have f := (call_fair ht hR (hv x (by simp)) (h.imp id fun h => ⟨hlr, h⟩) h1).1 hlr
      exact calls_fair ht hR hlr cs S1 S' (fun y hy => hv y (by simp [hy])) (Or.inr f) hc

end TPSampler

/-- **C119, partial**: with leaf resampling after any number of calls, and without for the first call of a new sampler:
the root cube is divided into one cell per returned point, the point is in its cell, and the weight is target times cell
volume, normalised. Missing: further calls without leaf resampling, where this is false (`C119_refuted`). -/
theorem C119_partial {dmin dmax : Pt K d} (hlt : ∀ i, dmin i < dmax i) {R : K}
    (hR : IsGreatest (Set.range fun i => (dmax i - dmin i) / 2) R) (cfg : TPConfig K) {e : K}
    (he : cfg.essTarget = some e) (h1e : 1 < e) {S0 : TPSampler K d} (h0 : TPSampler.new dmin dmax = .ok S0)
    (t : Pt K d → K) (ht : ∀ x, 0 ≤ t x) (cs : List (TPCall K d)) (hcs : ∀ x ∈ cs, x.Open)
    (hlr : cfg.leafResampling = true ∨ cs = []) {S : TPSampler K d}
    (hS : S0.calls cfg (fun x => XF.fin (t x)) cs = .ok S) (call : TPCall K d) (hc : call.Open) {S' : TPSampler K d}
    {xs : List (Pt K d)} {ws : List (XF K)}
    (hi : S.importanceSampleSimple cfg (fun x => XF.fin (t x)) call.n call.u0 call.its = .ok (S', some (xs, ws))) :
    CellWeighted t (fun i => (dmin i + dmax i) / 2) R xs ws := by
  obtain ⟨hR0, hblank, _⟩ := TPSampler.new_root hlt h0 hR
  have hst : TPSampler.Blank (fun i => (dmin i + dmax i) / 2) R S ∨
      (cfg.leafResampling = true ∧ TPSampler.Fair cfg t (fun i => (dmin i + dmax i) / 2) R S) := by
    rcases hlr with hlr | rfl
    · exact (TPSampler.calls_fair ht hR0 hlr cs S0 S hcs (Or.inl hblank) hS).imp id fun h => ⟨hlr, h⟩
    · simp only [TPSampler.calls, List.foldlM_nil, pure, Except.pure, Except.ok.injEq] at hS
      rw [← hS]; exact Or.inl hblank
  obtain ⟨T, e', s, r, hs, hcache, _, hg⟩ := (TPSampler.call_fair ht hR0 hc hst hi).2 xs ws rfl
  rw [he] at hg
  unfold getSamples at hg
  simp only [h1e, if_true, Except.ok.injEq, Prod.mk.injEq] at hg
  rw [← hg.1, ← hg.2]
  exact cells_weighted hR0 hs ht r hcache

/-- One call for 3 samples with target `1 + x ^ 2` on `[0, 1]`. -/
def tpOneCall : Option (List (XF ℚ)) :=
  match TPSampler.new (K := ℚ) ![0] ![1] with
  | .error _ => none
  | .ok S0 =>
    match S0.importanceSampleSimple ⟨some 2, 1, 1, false⟩ (fun x => XF.fin (1 + x 0 ^ 2)) 3 ![1/2]
        (List.replicate 2 ⟨fun _ => ![1/2], fun _ => ![1/2], false⟩) with
    | .ok (_, some o) => some o.2
    | _ => none

theorem tpOneCall_weights : tpOneCall = some [XF.fin (68/169), XF.fin (89/338), XF.fin (113/338)] := by
  decide +kernel

/-- C119 applied to a call that returns three points. -/
example : ∃ (S0 S' : TPSampler ℚ 1) (xs : List (Pt ℚ 1)) (ws : List (XF ℚ)), TPSampler.new ![0] ![1] = .ok S0 ∧
    S0.importanceSampleSimple ⟨some 2, 1, 1, false⟩ (fun x => XF.fin (1 + x 0 ^ 2)) 3 ![1/2]
      (List.replicate 2 ⟨fun _ => ![1/2], fun _ => ![1/2], false⟩) = .ok (S', some (xs, ws)) ∧ ws.length = 3 ∧
    CellWeighted (fun x => 1 + x 0 ^ 2) (fun i => (![0] i + ![1] i) / 2) (1 / 2) xs ws := by
  have h := tpOneCall_weights
  unfold tpOneCall at h
  split at h
  · simp at h
  · rename_i S0 h0
    split at h
    · rename_i S' o hi
      obtain ⟨xs, ws⟩ := o
      simp only [Option.some.injEq] at h
      refine ⟨S0, S', xs, ws, h0, hi, by rw [h]; rfl, ?_⟩
      refine C119_partial (e := 2) (by intro i; fin_cases i; norm_num) ⟨⟨0, by norm_num⟩, ?_⟩ _ rfl (by norm_num) h0
        (fun x => 1 + x 0 ^ 2) (fun x => by positivity) [] (by simp) (Or.inr rfl) (S := S0) rfl
        ⟨3, ![1/2], List.replicate 2 ⟨fun _ => ![1/2], fun _ => ![1/2], false⟩⟩ ?_ hi
      · rintro _ ⟨i, rfl⟩; fin_cases i; norm_num
      · refine ⟨by intro i; fin_cases i; norm_num, ?_⟩
        intro it hit
        obtain rfl := List.eq_of_mem_replicate hit
        exact ⟨fun p i => by fin_cases i; norm_num, fun p i => by fin_cases i; norm_num⟩
    · simp at h

/-- Two calls, for 2 and for 3 samples, on a target that is 2 everywhere; no leaf resampling. -/
def tpTwoCalls : Option (List (Pt ℚ 1) × List (XF ℚ)) :=
  match TPSampler.new (K := ℚ) ![0] ![1] with
  | .error _ => none
  | .ok S0 =>
    match S0.calls ⟨some 2, 1, 1, false⟩ (fun _ => XF.fin 2) [⟨2, ![1/2], [⟨fun _ => ![1/2], fun _ => ![1/2], false⟩]⟩] with
    | .error _ => none
    | .ok S =>
      match S.importanceSampleSimple ⟨some 2, 1, 1, false⟩ (fun _ => XF.fin 2) 3 ![1/2]
        [⟨fun _ => ![1/2], fun _ => ![1/2], false⟩] with
      | .ok (_, some o) => some o
      | _ => none

theorem tpTwoCalls_weights : tpTwoCalls.map (fun o => o.2) = some [XF.fin (1/3), XF.fin (1/3), XF.fin (1/3)] := by
  decide +kernel

/-- **C119, refuted**: a sampler without leaf resampling on a constant target; the second call returns three points of
equal weight, although no division of the interval into three dyadic cells has cells of equal size. -/
theorem C119_refuted : ∃ (cfg : TPConfig ℚ) (S0 S S' : TPSampler ℚ 1) (c1 c2 : TPCall ℚ 1) (xs : List (Pt ℚ 1))
    (ws : List (XF ℚ)), cfg.essTarget = some 2 ∧ TPSampler.new ![0] ![1] = .ok S0 ∧ c1.Open ∧ c2.Open ∧
    S0.calls cfg (fun _ => XF.fin 2) [c1] = .ok S ∧
    S.importanceSampleSimple cfg (fun _ => XF.fin 2) c2.n c2.u0 c2.its = .ok (S', some (xs, ws)) ∧
    ¬ CellWeighted (fun _ => 2) (fun i => (![0] i + ![1] i) / 2) (1 / 2) xs ws := by
  have h := tpTwoCalls_weights
  unfold tpTwoCalls at h
  split at h
  · simp at h
  · rename_i S0 h0
    split at h
    · simp at h
    · rename_i S hS
      split at h
      · rename_i S' o hi
        obtain ⟨xs, ws⟩ := o
        simp only [Option.map_some, Option.some.injEq] at h
        refine ⟨⟨some 2, 1, 1, false⟩, S0, S, S', ⟨2, ![1/2], [⟨fun _ => ![1/2], fun _ => ![1/2], false⟩]⟩,
          ⟨3, ![1/2], [⟨fun _ => ![1/2], fun _ => ![1/2], false⟩]⟩, xs, ws, rfl, h0, ?_, ?_, hS, hi, ?_⟩
        · refine ⟨by intro i; fin_cases i; norm_num, ?_⟩
          intro it hit
          simp only [List.mem_singleton] at hit
          subst hit
          exact ⟨fun p i => by fin_cases i; norm_num, fun p i => by fin_cases i; norm_num⟩
        · refine ⟨by intro i; fin_cases i; norm_num, ?_⟩
          intro it hit
          simp only [List.mem_singleton] at hit
          subst hit
          exact ⟨fun p i => by fin_cases i; norm_num, fun p i => by fin_cases i; norm_num⟩
        · rintro ⟨cells, h1, h2, hv, h3, h4, h5⟩
          rw [h] at h5
          have hl := congrArg List.length h5
          simp only [List.length_cons, List.length_nil, List.length_map, List.length_zipWith, h1, min_self] at hl
          match xs, cells, hl, h1 with
          | [x, y, z], [a, b, c], _, _ =>
            obtain ⟨k, hk⟩ := h3 a (by simp)
            have ha : 0 < a.2 := by rw [hk]; positivity
            have hbp : 0 < b.2 := by obtain ⟨k, hk⟩ := h3 b (by simp); rw [hk]; positivity
            have hcp : 0 < c.2 := by obtain ⟨k, hk⟩ := h3 c (by simp); rw [hk]; positivity
            simp only [List.zipWith_cons_cons, List.zipWith_nil_left, List.map_cons, List.map_nil, List.sum_cons, List.sum_nil,
              pow_one, List.cons.injEq, XF.fin.injEq, and_true] at h5 hv
            obtain ⟨h5, _, _⟩ := h5
            have hne : 2 * (2 * a.2) + (2 * (2 * b.2) + (2 * (2 * c.2) + 0)) ≠ 0 := by positivity
            rw [eq_div_iff hne] at h5
            have h6 : a.2 = 1 / 6 := by linarith
            rw [h6] at hk
            have h7 : (2 : ℚ) ^ k = 3 := by field_simp at hk; linarith
            have h8 : (2 : ℕ) ^ k = 3 := by exact_mod_cast h7
            cases k with
            | zero => simp at h8
            | succ k => rw [pow_succ] at h8; omega
      · simp at h

end Verif
