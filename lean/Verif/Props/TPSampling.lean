import Verif.Proof.TPSamples
import Verif.Spec.TPCalls
import Mathlib.Algebra.Order.Ring.Rat

/-!
# Sampling runs of the tree pyramid: C30, C31, C34, C71, C72
-/

set_option linter.unusedSectionVars false
set_option autoImplicit false

namespace Verif

variable {K : Type*} [Field K] [LinearOrder K] [IsStrictOrderedRing K] {d : ℕ}

open TPTree

namespace TPSampler

theorem new_blank {dmin dmax : Pt K d} (hlt : ∀ i, dmin i < dmax i) {S : TPSampler K d} (h : new dmin dmax = .ok S) :
    ∃ R : K, 0 < R ∧ Blank (fun i => (dmin i + dmax i) / 2) R S := by
  unfold new at h
  cases h0 : TPTree.init dmin dmax with
  | error e => simp [h0, Except.map] at h
  | ok T =>
    rw [h0] at h
    simp only [Except.map, Except.ok.injEq] at h
    obtain ⟨R, ⟨i, hi⟩, _, r⟩ := reached_init h0
    refine ⟨R, by rw [hi]; have := hlt i; linarith, ?_⟩
    obtain ⟨R', _, _, hT⟩ := init_eq h0
    subst h
    refine ⟨r, ?_⟩
    rw [hT]
    exact ⟨_, rfl, rfl, rfl, rfl⟩

theorem calls_ready {target : Pt K d → XF K} {c : Pt K d} {R : K} (hR : 0 < R) (cfg : TPConfig K) {t : K}
    (ht : cfg.essTarget = some t) : ∀ (cs : List (TPCall K d)) (S : TPSampler K d), (∀ x ∈ cs, x.InRange) →
    (Blank c R S ∨ Ready target c R S) →
    ∃ S', S.calls cfg target cs = .ok S' ∧ (Blank c R S' ∨ Ready target c R S') ∧ (cs ≠ [] → Ready target c R S')
  | [], S, _, h => ⟨S, rfl, h, fun h => absurd rfl h⟩
  | x :: cs, S, hv, h => by
    obtain ⟨S1, out, h1, r1, _⟩ := importanceSampleSimple_spec hR cfg ht x.n (hv x (by simp)).1 (hv x (by simp)).2 h
    obtain ⟨S', h2, r2, r3⟩ := calls_ready hR cfg ht cs S1 (fun y hy => hv y (by simp [hy])) (Or.inr r1)
    refine ⟨S', ?_, r2, ?_⟩
    · unfold calls at h2 ⊢
      rw [List.foldlM_cons, h1]
      exact h2
    · intro _
      by_cases hcs : cs = []
      · subst hcs
        simp only [calls, List.foldlM_nil, pure, Except.pure, Except.ok.injEq] at h2
        rw [← h2]; exact r1
      · exact r3 hcs

end TPSampler

/-- **C31** After any number of calls on a new sampler, for any target: every leaf holds at least one sample; all its
samples lie in its box; samples and weights are aligned: each weight is the target at the sample next to it divided by
the density of the leaf's uniform proposal (0 outside the half open box) and possibly by later normalisers; the cached
sample and weight at the position of the leaf are its last ones (the weight up to normalisation). -/
theorem C31_samples_in_leaf {dmin dmax : Pt K d} (hlt : ∀ i, dmin i < dmax i) (cfg : TPConfig K) {t : K}
    (ht : cfg.essTarget = some t) (target : Pt K d → XF K) {S0 : TPSampler K d} (h0 : TPSampler.new dmin dmax = .ok S0)
    (cs : List (TPCall K d)) (hne : cs ≠ []) (hv : ∀ x ∈ cs, x.InRange) :
    ∃ S, S0.calls cfg target cs = .ok S ∧
      ∀ p ∈ S.T.leaves, ∃ (n : TPNode K d) (xs : List (Pt K d)) (ws : List (XF K)), S.T.nodes[p]? = some n ∧
        n.coordsHist = some xs ∧ n.weightHist = some ws ∧ xs.length = ws.length ∧ xs ≠ [] ∧
        (∀ x ∈ xs, ∀ i, n.center i - n.radius ≤ x i ∧ x i < n.center i + n.radius) ∧
        (∀ x w, (x, w) ∈ xs.zip ws → ∃ (q : XF K) (ds : List (XF K)),
          (q = XF.fin 1 / XF.fin ((2 * n.radius) ^ d) ∨
            (q = XF.fin 0 ∧ ¬ ∀ i, n.center i - n.radius < x i ∧ x i ≤ n.center i + n.radius)) ∧
          w = ds.foldl (fun a b => a / b) (target x / q)) ∧
        S.T.samples[p]? = xs.getLast? ∧
        ∃ (w : XF K) (ds : List (XF K)), ws.getLast? = some w ∧
          S.T.weights[p]? = some (ds.foldl (fun a b => a / b) w) := by
  obtain ⟨R, hR, b⟩ := TPSampler.new_blank hlt h0
  obtain ⟨S, h1, _, h2⟩ := TPSampler.calls_ready (target := target) hR cfg ht cs S0 hv (Or.inl b)
  refine ⟨S, h1, fun p hp => ?_⟩
  obtain ⟨n, xs, ws, g1, g2, g3, g4, g5, g6⟩ := (h2 hne).hist p hp
  refine ⟨n, xs, ws, g1, g2, g3, g4.len, g4.ne, g4.inbox, ?_, g5, g6⟩
  intro x w hxw
  obtain ⟨q, ds, hq, hw⟩ := g4.pairs x w hxw
  refine ⟨q, ds, ?_, hw⟩
  rcases hq with hq | hq
  · split_ifs at hq with hin
    · exact Or.inl hq
    · exact Or.inr ⟨hq, hin⟩
  · exact Or.inl hq

/-- **C71** With a numeric `ess_target` no call ever raises, whatever the target returns (zero, infinite or undefined
values included) and whatever the random outcomes; when the call returns, samples and weights have the same length and
there are at least as many as requested unless the time limit passed. -/
theorem C71_never_raises {dmin dmax : Pt K d} (hlt : ∀ i, dmin i < dmax i) (cfg : TPConfig K) {t : K}
    (ht : cfg.essTarget = some t) (target : Pt K d → XF K) {S0 : TPSampler K d} (h0 : TPSampler.new dmin dmax = .ok S0)
    (cs : List (TPCall K d)) (hv : ∀ x ∈ cs, x.InRange) (c : TPCall K d) (hc : c.InRange) :
    ∃ S S' o, S0.calls cfg target cs = .ok S ∧
      S.importanceSampleSimple cfg target c.n c.u0 c.its = .ok (S', o) ∧
      ∀ xs ws, o = some (xs, ws) → xs.length = ws.length ∧ (c.n ≤ ws.length ∨ ∃ it ∈ c.its, it.late = true) := by
  obtain ⟨R, hR, b⟩ := TPSampler.new_blank hlt h0
  obtain ⟨S, h1, h2, _⟩ := TPSampler.calls_ready (target := target) hR cfg ht cs S0 hv (Or.inl b)
  obtain ⟨S', o, h3, r3, h4⟩ := TPSampler.importanceSampleSimple_spec hR cfg ht c.n hc.1 hc.2 h2
  refine ⟨S, S', o, h1, h3, ?_⟩
  rintro xs ws rfl
  have hg := h4 _ rfl
  obtain ⟨e, hr⟩ := r3.reached
  rw [ht] at hg
  refine ⟨getSamples_aligned hr.wf r3.hist hg, ?_⟩
  obtain ⟨Sa, ha, ra⟩ := TPSampler.initRoot_spec (target := target) hR hc.1 h2
  obtain ⟨Sb, fin, hb, rb⟩ := TPSampler.loop_spec hR cfg ht c.n c.its false Sa hc.2 ra
  unfold TPSampler.importanceSampleSimple at h3
  simp only [ha, hb, bind, Except.bind, pure, Except.pure] at h3
  cases fin with
  | false => simp at h3
  | true =>
    obtain ⟨Sc, hu, _, hT, _⟩ := TPSampler.updateModel_spec rb
    obtain ⟨o', ho', hx⟩ := TPSampler.loop_exit cfg c.n c.its false Sa Sb hb
    simp only [hu, if_true] at h3
    cases hgc : Sc.T.getSamples cfg.essTarget with
    | error e => simp [hgc] at h3
    | ok oc =>
      simp only [hgc, Except.ok.injEq, Prod.mk.injEq, Option.some.injEq] at h3
      obtain ⟨rfl, h3⟩ := h3
      obtain ⟨eb, hrb⟩ := rb.reached
      rw [ht] at ho'
      rw [hT] at hg
      rw [getSamples_selfNormalize hrb.wf ho' hg]
      simpa using hx

/-- A sampler that went through one call with leaf resampling (two refinements, 3 leaves), in which 3 samples come
back although only 2 were asked for. -/
def tpDemo : Option (List (Pt ℚ 1) × List (XF ℚ) × ℕ) :=
  match TPSampler.new (K := ℚ) ![0] ![1] with
  | .error _ => none
  | .ok S0 =>
    match TPSampler.importanceSampleSimple ⟨some 1, 1, 1, true⟩ (fun x => XF.fin (x 0)) 3 ![1/2]
      [⟨fun _ => ![1/2], fun _ => ![1/4], false⟩, ⟨fun _ => ![1/2], fun _ => ![3/4], false⟩] S0 with
    | .ok (S, some o) => some (o.1, o.2, S.T.leaves.length)
    | _ => none

example : ∃ xs ws, tpDemo = some (xs, ws, 3) ∧ ws.length = 3 := by
  have h : (tpDemo.map fun r => (r.2.1.length, r.2.2)) = some (3, 3) := by decide +kernel
  cases hd : tpDemo with
  | none => simp [hd] at h
  | some r =>
    obtain ⟨xs, ws, k⟩ := r
    simp only [hd, Option.map_some, Option.some.injEq, Prod.mk.injEq] at h
    exact ⟨xs, ws, by rw [h.2], h.1⟩

example : TPCall.InRange (K := ℚ) (d := 1) ⟨3, ![1/2], [⟨fun _ => ![1/2], fun _ => ![1/4], false⟩]⟩ := by
  refine ⟨?_, ?_⟩
  · intro i; fin_cases i; decide +kernel
  · intro it hit
    rw [List.mem_singleton] at hit
    subst hit
    constructor
    · intro _ i; fin_cases i; exact (by decide +kernel : (0 : ℚ) ≤ 1/2 ∧ (1/2 : ℚ) < 1)
    · intro _ i; fin_cases i; exact (by decide +kernel : (0 : ℚ) ≤ 1/4 ∧ (1/4 : ℚ) < 1)

/-- **C72, refuted**: with the documented value `ess_target = None` ("always expand") the first call raises TypeError on
every domain, for every target and every request. -/
theorem C72_refuted {dmin dmax : Pt K d} (hlt : ∀ i, dmin i < dmax i) (cfg : TPConfig K) (ht : cfg.essTarget = none)
    (target : Pt K d → XF K) {S0 : TPSampler K d} (h0 : TPSampler.new dmin dmax = .ok S0) (c : TPCall K d)
    (hc : c.InRange) : S0.importanceSampleSimple cfg target c.n c.u0 c.its = .error .type := by
  obtain ⟨R, hR, b⟩ := TPSampler.new_blank hlt h0
  obtain ⟨Sa, ha, ra⟩ := TPSampler.initRoot_spec (target := target) hR hc.1 (Or.inl b)
  unfold TPSampler.importanceSampleSimple
  simp only [ha, bind, Except.bind]
  cases c.its <;> simp [TPSampler.loop, ht, getSamples, bind, Except.bind]

example : ∃ S0, TPSampler.new (K := ℚ) (d := 2) ![0, 0] ![1, 2] = .ok S0 := ⟨_, rfl⟩

/-- **C34** `_expand_nodes` on leaves of a tree with any history, none of them listed twice: nothing is returned twice,
everything returned is a leaf of the new tree; every leaf of the new tree was a leaf before or is returned; and if
every candidate meets the expansion criterion at most `max_parts + 2^d` nodes are returned. -/
theorem C34_expand_nodes {dmin dmax : Pt K d} {ops : List (TPOp K d)} {T : TPTree K d} {e : ℕ}
    (h : TPReach dmin dmax ops T e) (ess : Option K) (nMin maxParts : ℕ) (cand : List ℕ) (hnd : cand.Nodup)
    (hl : ∀ p ∈ cand, p ∈ T.leaves) {T' : TPTree K d} {out : List ℕ}
    (hx : expandNodes ess nMin maxParts T cand [] = .ok (T', out)) :
    out.Nodup ∧ (∀ p ∈ out, p ∈ T'.leaves) ∧ (∀ p ∈ T'.leaves, p ∈ T.leaves ∨ p ∈ out) ∧
    ((∀ p ∈ cand, ∃ T1 refs, T.expand p ess nMin = .ok (T1, some refs)) → out.length ≤ maxParts + 2 ^ d) := by
  obtain ⟨R, _, _, r⟩ := reached_of h
  obtain ⟨_, a2, a3, a4, _⟩ := expandNodes_spec ess nMin maxParts cand T T' e [] out r hx (by simpa using hnd)
    (by simpa using hl)
  refine ⟨a2, a3, fun p hp => (a4 p hp).imp (fun h => h.1) (fun h => h.1), ?_⟩
  intro hs
  have len : ∀ (ps : List ℕ) (T : TPTree K d) (e : ℕ) (acc : List ℕ),
      Reached (fun i => (dmin i + dmax i) / 2) R T e → ps.Nodup → (∀ p ∈ ps, p ∈ T.leaves) →
      (∀ p ∈ ps, ∃ n : TPNode K d, T.nodes[p]? = some n ∧ shouldExpand n ess nMin = .ok true) → acc.length ≤ maxParts →
      expandNodes ess nMin maxParts T ps acc = .ok (T', out) → out.length ≤ maxParts + 2 ^ d := by
    intro ps
    induction ps with
    | nil =>
      intro T e acc r _ _ _ hacc hx
      simp only [expandNodes, Except.ok.injEq, Prod.mk.injEq] at hx
      rw [← hx.2]; exact hacc.trans (Nat.le_add_right _ _)
    | cons p ps ih =>
      intro T e acc r hnd hl hs hacc hx
      rw [List.nodup_cons] at hnd
      simp only [expandNodes] at hx
      cases hxp : T.expand p ess nMin with
      | error => simp [hxp] at hx
      | ok o =>
        obtain ⟨T1, o⟩ := o
        rw [hxp] at hx
        obtain ⟨m, hm, hsm⟩ := hs p (by simp)
        rcases expand_cases hxp with ⟨rfl, rfl, k, hk, _, hno⟩ | ⟨n, hn, hlf, hse, rfl, rfl⟩
        · rw [hm] at hk
          obtain rfl : m = k := by simpa using hk
          rw [hsm] at hno; cases hno
        · simp only at hx
          split_ifs at hx with hc
          · simp only [Except.ok.injEq, Prod.mk.injEq] at hx
            rw [← hx.2, List.length_append, List.length_range']
            omega
          · refine ih _ (e + 1) _ (r.insert hn hlf) hnd.2 ?_ ?_ (not_lt.1 hc) hx
            · intro q hq
              exact (insertChildren_leaves r.wf hn hlf q).2 (Or.inl ⟨hl q (by simp [hq]), fun h => hnd.1 (h ▸ hq)⟩)
            · intro q hq
              obtain ⟨k, hk, hsk⟩ := hs q (by simp [hq])
              refine ⟨k, ?_, hsk⟩
              rw [(insertChildren_old r.wf (fun h : q = p => hnd.1 (h ▸ hq)) (List.getElem?_eq_some_iff.1 hk).1).1, hk]
  exact len cand T e [] r hnd hl (by
    intro p hp
    obtain ⟨T1, refs, hxp⟩ := hs p hp
    rcases expand_cases hxp with ⟨h', _, _⟩ | ⟨n, hn, hlf, hse, _, _⟩
    · simp at h'
    · exact ⟨n, hn, hse⟩) (by simp) hx

/-- Two candidates in dimension 1 with a limit of 1: the limit is passed after the first one, two nodes come back. -/
example : ∃ T e, TPReach (K := ℚ) (d := 1) ![0] ![1] [.expand 0 none 5] T e ∧
    decide (T.leaves = [1, 2] ∧ (expandNodes none 5 1 T [1, 2] []).toOption.map (fun r => (r.2, r.1.leaves)) =
      some ([3, 4], [3, 2, 4])) = true :=
  of_reachCheck (by decide +kernel)

/-- The leaves of the tree with their stored (sample, weight) pairs, in leaf order. -/
def TPTree.stored (T : TPTree K d) : List (List (Pt K d × XF K)) :=
  T.leaves.map fun p => match T.nodes[p]? with
    | some n => (n.coordsHist.getD []).zip (n.weightHist.getD [])
    | none => []

/-- **C30** what holds: with `ess_target <= 1` on leaves with aligned non empty histories (the states produced by
`importance_sample`, see C31), every returned pair is a pair stored in a leaf and has positive weight; and if every leaf
but possibly the last holds exactly one sample, the returned pairs are exactly the stored pairs of positive weight in
leaf order. Missing: the same when leaves hold several samples, which is false (`C30_refuted`). -/
theorem C30_partial (T : TPTree K d) {t : K} (ht : t ≤ 1) (ch : ℕ → List (Pt K d)) (wh : ℕ → List (XF K))
    (hh : ∀ p ∈ T.leaves, ∃ n : TPNode K d, T.nodes[p]? = some n ∧ n.coordsHist = some (ch p) ∧
      n.weightHist = some (wh p) ∧ (ch p).length = (wh p).length ∧ ch p ≠ []) :
    ∃ xs ws, T.getSamples (some t) = .ok (xs, ws) ∧ xs.length = ws.length ∧
      (∀ e ∈ xs.zip ws, XF.ltb (XF.fin 0) e.2 = true ∧ ∃ l ∈ T.stored, e ∈ l) ∧
      ((∀ l ∈ T.stored.dropLast, l.length = 1) →
        xs.zip ws = T.stored.flatten.filter fun e => XF.ltb (XF.fin 0) e.2) := by
  have hst : T.stored = T.leaves.map fun p => (ch p).zip (wh p) := by
    apply List.map_congr_left
    intro p hp
    obtain ⟨n, h1, h2, h3, _⟩ := hh p hp
    simp [h1, h2, h3]
  obtain ⟨⟨s, w⟩, o1, o2, o3, o4, o5⟩ := write_spec (T.leaves.map fun p => (wh p).length).sum
    (T.leaves.map fun p => (ch p, wh p)) 0 (List.replicate _ (fun _ => 0), List.replicate _ (XF.fin 0))
    (by simp; rfl) (by simp; rfl) (by
      intro g hg
      obtain ⟨p, hp, rfl⟩ := List.mem_map.1 hg
      obtain ⟨n, h1, h2, h3, h4, h5⟩ := hh p hp
      refine ⟨h4, ?_⟩
      simp only
      rw [← h4]
      exact List.length_pos_iff.2 h5) (by rw [List.map_map]; simp [Function.comp_def])
  have hg := getSamples_hist T ht ch wh (fun p hp => by
    obtain ⟨n, h1, h2, h3, _⟩ := hh p hp
    exact ⟨n, h1, h2, h3⟩) o1
  obtain ⟨z1, z2⟩ := zip_maskSelect (fun v => XF.ltb (XF.fin 0) v) s w (by simp at o2 o3; omega)
  refine ⟨_, _, hg, z1, ?_, ?_⟩
  · intro e he
    rw [z2, List.mem_filter] at he
    refine ⟨he.2, ?_⟩
    rcases o4 e he.1 with h | ⟨g, hg, hge⟩
    · have h2 := List.of_mem_zip h
      simp only [List.mem_replicate] at h2
      have := he.2
      rw [h2.2.2] at this
      simp [XF.ltb] at this
    · obtain ⟨p, hp, rfl⟩ := List.mem_map.1 hg
      rw [hst]
      exact ⟨_, List.mem_map.2 ⟨p, hp, rfl⟩, hge⟩
  · intro hone
    rw [z2]
    congr 1
    have := o5 (by
      intro h hm
      rw [← List.map_dropLast] at hm
      obtain ⟨p, hp, rfl⟩ := List.mem_map.1 hm
      rw [hst, ← List.map_dropLast] at hone
      have h1 := hone _ (List.mem_map.2 ⟨p, hp, rfl⟩)
      obtain ⟨n, _, _, _, h4, _⟩ := hh p (List.dropLast_subset _ hp)
      rw [List.length_zip, h4, min_self] at h1
      exact h1)
    simp only [List.take_zero, List.nil_append, zero_add] at this
    rw [this, List.drop_eq_nil_of_le, List.append_nil, hst, List.flatMap_map, List.flatMap_def]
    · simp [Function.comp_def]

/-- The final sampler state and the result of three iterations on a constant target, with `n_min = 2`. -/
def tpLoss : Option (TPSampler ℚ 1 × (List (Pt ℚ 1) × List (XF ℚ))) :=
  match TPSampler.new (K := ℚ) ![0] ![1] with
  | .error _ => none
  | .ok S0 =>
    match TPSampler.importanceSampleSimple ⟨some 1, 2, 1, false⟩ (fun _ => XF.fin 1) 5 ![1/2]
      [⟨fun _ => ![1/2], fun _ => ![1/2], false⟩, ⟨fun _ => ![1/2], fun _ => ![1/2], false⟩,
       ⟨fun _ => ![1/4], fun _ => ![1/2], true⟩] S0 with
    | .ok (S, some o) => some (S, o)
    | _ => none

/-- **C30, refuted**: a call of `importance_sample` after which the two leaves store four samples of positive weight
while three are returned (the second leaf overwrites the second sample of the first one). -/
theorem C30_refuted : ∃ (S : TPSampler ℚ 1) (xs : List (Pt ℚ 1)) (ws : List (XF ℚ)), tpLoss = some (S, (xs, ws)) ∧
    (S.T.stored.flatten.filter fun e => XF.ltb (XF.fin 0) e.2).length = 4 ∧ ws.length = 3 := by
  have h : (tpLoss.map fun r => ((r.1.T.stored.flatten.filter fun e => XF.ltb (XF.fin 0) e.2).length,
    r.2.2.length)) = some (4, 3) := by decide +kernel
  cases hd : tpLoss with
  | none => simp [hd] at h
  | some r =>
    obtain ⟨S, xs, ws⟩ := r
    simp only [hd, Option.map_some, Option.some.injEq, Prod.mk.injEq] at h
    exact ⟨S, xs, ws, rfl, h.1, h.2⟩

end Verif
