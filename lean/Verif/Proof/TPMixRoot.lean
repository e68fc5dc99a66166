import Verif.Proof.TPMixFirst

set_option linter.unusedSectionVars false
set_option autoImplicit false

namespace Verif

variable {K : Type*} [Field K] [LinearOrder K] [IsStrictOrderedRing K] {d : ℕ}

open TPTree

namespace TPSampler

theorem getSamples_one {c : Pt K d} {R : K} {T : TPTree K d} (r : Reached c R T 0) {n : TPNode K d}
    (hn : T.nodes[0]? = some n) {ch : List (Pt K d)} {ws : List K} (hc : n.coordsHist = some ch)
    (hw : n.weightHist = some (ws.map XF.fin)) (hl : ch.length = ws.length) (hpos : ∀ w ∈ ws, 0 < w) {t : K} (ht : t ≤ 1) :
    T.getSamples (some t) = .ok (ch, ws.map XF.fin) := by
  obtain ⟨hlv, _⟩ := r.root_leaf
  have all : ∀ {α : Type _} (l : List α) (k : ℕ), l.length = k → maskSelect (List.replicate k true) l = l := by
    intro α l
    induction l with
    | nil => intro k hk; cases k <;> simp [maskSelect]
    | cons a l ih =>
      intro k hk
      cases k with
      | zero => simp at hk
      | succ k =>
        have hk' : l.length = k := by simpa using hk
        simp only [List.replicate_succ, maskSelect]
        rw [ih k hk']
  have hmask : (ws.map XF.fin).map (fun v => XF.ltb (XF.fin 0) v) = List.replicate ws.length true := by
    rw [List.map_map]
    apply List.eq_replicate_iff.2
    refine ⟨by simp, ?_⟩
    intro b hb
    obtain ⟨w, hw, rfl⟩ := List.mem_map.1 hb
    simp [XF.ltb, hpos w hw]
  unfold TPTree.getSamples
  have hm : (T.leaves.mapM fun p => (T.nodes[p]?).bind fun n =>
      (n.coordsHist.bind fun ch => n.weightHist.map fun wh => (ch, wh))) = some [(ch, ws.map XF.fin)] := by
    rw [hlv]
    simp [hn, hc, hw]
  simp only [not_lt.2 ht, if_false, hm]
  have hfold : ([(ch, ws.map XF.fin)] : List (List (Pt K d) × List (XF K))).zipIdx.foldlM
      (fun (acc : List (Pt K d) × List (XF K)) (hi : (List (Pt K d) × List (XF K)) × ℕ) =>
        if hi.1.1.length = hi.1.2.length then do
          let s ← writeSlice acc.1 hi.2 hi.1.1
          let w ← writeSlice acc.2 hi.2 hi.1.2
          return (s, w)
        else .error .value)
      (List.replicate ws.length (fun _ => 0), List.replicate ws.length (XF.fin 0))
      = Except.ok (ε := PyErr) (ch, ws.map XF.fin) := by
    simp only [List.zipIdx_singleton, List.foldlM_cons, List.foldlM_nil, List.length_map, hl, if_true, writeSlice,
      List.length_replicate, bind, Except.bind, pure, Except.pure]
    simp [hl]
  have hsum : (([(ch, ws.map XF.fin)] : List (List (Pt K d) × List (XF K))).map fun h => h.2.length).sum = ws.length := by
    simp
  rw [hsum]
  simp only [hfold, hmask]
  rw [all ch _ hl, all (ws.map XF.fin) _ (by simp)]

theorem root_positive_ess {a : List K} (ha : a ≠ []) (hpos : ∀ w ∈ a, 0 < w) :
    ∃ e : K, ((a.map XF.fin).sum * (a.map XF.fin).sum) / (((a.map XF.fin).map fun w => w * w).sum) = XF.fin e ∧ 1 ≤ e := by
  have h1 : (a.map XF.fin).sum = XF.fin a.sum := XF.sum_map_fin a
  have h2 : (((a.map XF.fin).map fun w => w * w).sum) = XF.fin (a.map fun w => w * w).sum := by
    rw [← XF.sum_map_fin, List.map_map, List.map_map]
    rfl
  have key : ∀ l : List K, (∀ w ∈ l, 0 < w) → 0 ≤ l.sum ∧ (l.map fun w => w * w).sum ≤ l.sum * l.sum := by
    intro l
    induction l with
    | nil => intro _; simp
    | cons x l ih =>
      intro h
      obtain ⟨i1, i2⟩ := ih fun w hw => h w (by simp [hw])
      have hx := h x (by simp)
      simp only [List.map_cons, List.sum_cons]
      constructor
      · linarith
      · nlinarith
  have hpos2 : 0 < (a.map fun w => w * w).sum := by
    apply List.sum_pos
    · intro x hx
      obtain ⟨w, hw, rfl⟩ := List.mem_map.1 hx
      have := hpos w hw
      positivity
    · simpa using ha
  refine ⟨a.sum * a.sum / (a.map fun w => w * w).sum, ?_, ?_⟩
  · rw [h1, h2, XF.fin_mul, XF.fin_div_ne _ _ hpos2.ne']
  · rw [le_div_iff₀ hpos2, one_mul]
    exact (key a hpos).2

/-- One iteration that samples the root again. -/
theorem iterateMix_root {target : Pt K d → XF K} {π : Pt K d → K} (hπ : ∀ x, target x = XF.fin (π x)) {cfg : TPConfig K} {t : K}
    (ht : cfg.essTarget = some t) (hres : cfg.leafResampling = false)
    {dmin dmax : Pt K d} {c : Pt K d} {R : K} (hR : 0 < R) {S : TPSampler K d} (r : Reached c R S.T 0)
    (hsb : S.SingleBox c R) {n : TPNode K d} (hn : S.T.nodes[0]? = some n) {ch : List (Pt K d)} {ws : List K}
    (hc : n.coordsHist = some ch) (hw : n.weightHist = some (ws.map XF.fin)) (hl : ch.length = ws.length) (hne : ws ≠ [])
    (hpos : ∀ w ∈ ws, 0 < w) (htl : t * ws.length < 1) {w0 : K} (hw0 : 0 < w0) (hwt : S.T.weights[0]? = some (XF.fin w0))
    {nS hv : ℕ} (hnS : hv < nS) (fuel : ℕ) (it : TPMixIter K d) (hd : ∀ i, 0 < it.draw 0 i ∧ it.draw 0 i < 1) :
    ∃ (S' : TPSampler K d) (n' : TPNode K d) (x : Pt K d),
      iterateMix cfg dmin dmax target (fuel + 1) nS hv it S = .ok S' ∧ Reached c R S'.T 0 ∧
      S'.SingleBox c R ∧ S'.T.nodes[0]? = some n' ∧ n'.coordsHist = some (ch ++ [x]) ∧
      n'.weightHist = some ((ws ++ [π x * (2 * R) ^ d / w0]).map XF.fin) ∧
      S'.T.weights[0]? = some (XF.fin (π x * (2 * R) ^ d / w0)) ∧ ∀ i, c i - R < x i ∧ x i < c i + R := by
  obtain ⟨hlv, m, hm, hml, _⟩ := r.root_leaf
  rw [hn] at hm
  obtain rfl : n = m := by simpa using hm
  have hbox : S.T.box 0 = (c, R) := by
    obtain ⟨m, hm, h1, h2, _⟩ := r.root
    simp [box, hm, h1, h2]
  have hsh : shouldExpand n (some t) cfg.nMin = .ok false := by
    unfold shouldExpand
    simp only [hw]
    split_ifs with h1 h2
    · rfl
    · rfl
    · exfalso
      obtain ⟨e, he, he1⟩ := root_positive_ess hne hpos
      apply h2
      rw [he]
      simp only [XF.ltb, List.length_map, decide_eq_true_eq]
      linarith
  set k := (nS - hv + (2 ^ d - 1)) / 2 ^ d with hk
  obtain ⟨wm, hwm⟩ := hsb
  have hkpos : 0 < k := ceilDiv_pos (d := d) hnS
  set pts := (List.range k).map fun j => Uniform.sample1 ⟨c, fun _ => R, (R * 2) ^ d⟩ (it.pickAt j) with hpts
  have hbs : boxesSample S.model it.pick it.pickAt ((nS - hv + (2 ^ d - 1)) / 2 ^ d) = .ok pts := by
    rw [hwm, ← hk, boxesSample_single]
  have hpne : pts.map (clipPt dmin dmax) ≠ [] := by
    intro h0
    have := congrArg List.length h0
    simp [hpts] at this
    omega
  have hexp : expandNodes (some t) cfg.nMin (nS - hv) S.T [0] [] = .ok (S.T, [0]) := by
    simp only [expandNodes, expand, hn, hml, hsh]
    simp
  set S1 : TPSampler K d := { S with T := S.T, numQ := S.numQ + k } with hS1
  obtain ⟨Sa, x, q, ha, sa, hma, hx, _, hpr, _, hwa, _, hna, _⟩ := visitMix_spec (target := target) (it := it) hR
    (S := S1) ⟨wm, hwm⟩ r (p := 0) (by show 0 ∈ S.T.leaves; rw [hlv]; simp) (Or.inr ⟨n, ch, _, hn, hc, hw, by simpa using hl, by simpa using hne⟩)
  have hxin : ∀ i, c i - R < x i ∧ x i < c i + R := by
    intro i
    have := hd i
    rw [hx]
    simp only [Uniform.sample1]
    constructor <;> nlinarith
  have hV : (0 : K) < (2 * R) ^ d := by positivity
  have hq : q = XF.fin (w0 / (2 * R) ^ d) := by
    rcases prob1_cases r.wf (r.tiles hR.le) x with ⟨_, h⟩ | ⟨p, hp, _, w, hw', h⟩
    · exfalso
      apply h 0 (by rw [hlv]; simp)
      unfold inOpen
      rw [hbox]
      exact hxin
    · rw [hlv, List.mem_singleton] at hp
      subst hp
      rw [hwt] at hw'
      obtain rfl : XF.fin w0 = w := by simpa using hw'
      rw [hbox, XF.fin_div_ne _ _ hV.ne'] at h
      have h2 : S.T.prob1 x = .ok q := hpr
      rw [h] at h2
      simpa using h2.symm
  have hwq : target x / q = XF.fin (π x * (2 * R) ^ d / w0) := by
    rw [hπ, hq, XF.fin_div_ne _ _ (by positivity)]
    congr 1
    field_simp
  refine ⟨Sa, (n.sample x).weigh target fun _ => q, x, ?_, r.same sa, ⟨wm, hma.trans hwm⟩, hna n hn, ?_, ?_, ?_, hxin⟩
  · unfold iterateMix
    simp only [hbs, ht, bind, Except.bind, pure, Except.pure, r.findUnique_root fuel _ hpne, hexp, hres,
      Bool.false_eq_true, if_false]
    have : List.foldlM (visitMix target it) S1 [0] = .ok Sa := by
      rw [List.foldlM_cons, ha]; rfl
    rw [hS1] at this
    rw [this]
  · simp [TPNode.weigh, TPNode.sample, hc]
  · simp only [TPNode.weigh, TPNode.sample, hw, Option.getD_some, List.map_append, List.map_cons, List.map_nil]
    rw [hwq]
  · rw [hwa, hwq]

end TPSampler
end Verif
