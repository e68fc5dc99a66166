import Verif.Props.HiDaiseeDensity

/-!
# Property C121: the weighted samples of HiDaisee and the density it reports
-/

set_option linter.unusedSectionVars false
set_option autoImplicit false

namespace Verif
namespace HiD

open MeasureTheory

variable {d : ℕ} {lo hi : Pt ℝ d}

/-! ### Specification -/

open Classical in
/-- Total weight of the returned samples that lie in the box of a node. -/
noncomputable def weightIn (m : Node ℝ d) (S : Sampler ℝ d) : XF ℝ :=
  (((S.samples.zip S.weights).filter fun s => m.Has s.1).map Prod.snd).sum

/-- The weighted samples give the box of `m` the share that the reported density gives it. -/
def SameShare (S : Sampler ℝ d) (m : Node ℝ d) : Prop :=
  ∃ (w W : ℝ) (f : Pt ℝ d → ℝ), weightIn m S = .fin w ∧ S.weights.sum = .fin W ∧ (∀ x, prob S [x] = [.fin (f x)]) ∧
    w / W = ∫ x in {x | m.Has x}, f x

/-! ### Proof -/

theorem leaf_weights {p : Pt ℝ d → ℝ} {m : Node ℝ d} {xs : List (Pt ℝ d)} (h : GoodLeaf (fun x => .fin (p x)) m xs) :
    m.weights = xs.map fun x => XF.fin (p x * m.vol) := by
  have hv := vol_pos h.pos
  rw [h.weights]
  refine List.map_congr_left fun x hx => ?_
  rw [prob1_has h.pos (h.mem x hx), XF.fin_div_ne _ _ (one_div_pos.2 hv).ne', div_div_eq_mul_div, div_one]

theorem zip_map_same {α β : Type*} (f : α → β) (l : List α) : l.zip (l.map f) = l.map fun x => (x, f x) := by
  induction l with
  | nil => rfl
  | cons a l ih => rw [List.map_cons, List.zip_cons_cons, ih, List.map_cons]

/-- The pairs of samples and weights, leaf by leaf. -/
theorem zip_leaves {p : Pt ℝ d → ℝ} : ∀ L : List (Node ℝ d),
    (∀ m ∈ L, GoodLeaf (fun x => .fin (p x)) m (m.samples.getD [])) →
    (L.flatMap fun n => n.samples.getD []).zip (L.flatMap Node.weights) =
      L.flatMap fun n => (n.samples.getD []).map fun x => (x, XF.fin (p x * n.vol))
  | [], _ => rfl
  | m :: L, h => by
    have hm := leaf_weights (h m List.mem_cons_self)
    have ih := zip_leaves L fun n hn => h n (List.mem_cons_of_mem _ hn)
    rw [List.flatMap_cons, List.flatMap_cons, List.flatMap_cons, List.zip_append (by rw [hm]; simp), ih]
    congr 1
    conv_lhs => rw [hm]
    exact zip_map_same _ _

/-- The pairs in a leaf. -/
theorem filter_leaf {p : Pt ℝ d → ℝ} {L : List (Node ℝ d)} (hd : L.Pairwise fun a b => ∀ x, ¬ (a.Has x ∧ b.Has x))
    (hL : ∀ m ∈ L, ∀ x ∈ m.samples.getD [], m.Has x) {m : Node ℝ d} (hm : m ∈ L) [DecidablePred fun s : Pt ℝ d × XF ℝ => m.Has s.1] :
    ((L.flatMap fun n => (n.samples.getD []).map fun x => (x, XF.fin (p x * n.vol))).filter fun s => m.Has s.1) =
      (m.samples.getD []).map fun x => (x, XF.fin (p x * m.vol)) := by
  obtain ⟨l1, l2, rfl⟩ := List.append_of_mem hm
  rw [List.pairwise_append, List.pairwise_cons] at hd
  obtain ⟨-, ⟨h2, -⟩, h1⟩ := hd
  have z1 : ((l1.flatMap fun n => (n.samples.getD []).map fun x => (x, XF.fin (p x * n.vol))).filter fun s => m.Has s.1) = [] := by
    rw [List.filter_eq_nil_iff]
    intro s hs
    obtain ⟨n, hn, hsn⟩ := List.mem_flatMap.1 hs
    obtain ⟨x, hx, rfl⟩ := List.mem_map.1 hsn
    have := h1 n hn m List.mem_cons_self x
    have h3 := hL n (List.mem_append_left _ hn) x hx
    simp only [decide_eq_true_eq]
    exact fun h => this ⟨h3, h⟩
  have z2 : ((l2.flatMap fun n => (n.samples.getD []).map fun x => (x, XF.fin (p x * n.vol))).filter fun s => m.Has s.1) = [] := by
    rw [List.filter_eq_nil_iff]
    intro s hs
    obtain ⟨n, hn, hsn⟩ := List.mem_flatMap.1 hs
    obtain ⟨x, hx, rfl⟩ := List.mem_map.1 hsn
    have := h2 n hn x
    have h3 := hL n (List.mem_append_right _ (List.mem_cons_of_mem _ hn)) x hx
    simp only [decide_eq_true_eq]
    exact fun h => this ⟨h, h3⟩
  have z3 : (((m.samples.getD []).map fun x => (x, XF.fin (p x * m.vol))).filter fun s => m.Has s.1) =
      (m.samples.getD []).map fun x => (x, XF.fin (p x * m.vol)) := by
    rw [List.filter_eq_self]
    intro s hs
    obtain ⟨x, hx, rfl⟩ := List.mem_map.1 hs
    exact decide_eq_true (hL m hm x hx)
  rw [List.flatMap_append, List.flatMap_cons, List.filter_append, List.filter_append, z1, z2, z3]
  simp

theorem sum_average (p : Pt ℝ d → ℝ) (xs : List (Pt ℝ d)) : (xs.map p).sum = xs.length * average p xs := by
  unfold average
  split
  · rename_i h
    simp [h]
  · rename_i h
    have : (0 : ℝ) < xs.length := by exact_mod_cast List.length_pos_of_ne_nil h
    field_simp

/-- What the weights are: the samples of a leaf together weigh the number of samples in the leaf times the estimated mass of
the leaf (volume times average target density), instead of the estimated mass. -/
theorem C121_weights (hbox : ∀ i, lo i < hi i) {c : Cfg ℝ} {p : Pt ℝ d → ℝ} {S S' : Sampler ℝ d}
    (hS : Reach lo hi c (fun x => .fin (p x)) S) {n : ℕ} {its : ℕ → Iter ℝ d}
    (h : importanceSample c (fun x => .fin (p x)) n its S = .ok S') :
    (∀ m ∈ S'.T.leafNodes, weightIn m S' =
      .fin ((within m S'.samples).length * (m.vol * average p (within m S'.samples)))) ∧
    S'.weights.sum = .fin (S'.T.leafNodes.map fun m =>
      (within m S'.samples).length * (m.vol * average p (within m S'.samples))).sum := by
  classical
  obtain ⟨hg, hs, -, -⟩ := call_model hbox hS h
  obtain ⟨r1, -⟩ := reach_spec hbox hS
  obtain ⟨-, -, hw, -⟩ := importance_spec hbox r1 h
  set L := S'.T.leafNodes with hL
  have hdis := disjoint_leaves hg
  have hgood := fun m hm => leafNodes_good (m := m) hg hm
  have hin : ∀ m ∈ L, within m S'.samples = m.samples.getD [] := fun m hm => by
    rw [hs]
    exact within_eq hdis (fun m hm => (hgood m hm).1.mem) hm
  have hsum : ∀ m ∈ L, (m.weights).sum = .fin ((within m S'.samples).length * (m.vol * average p (within m S'.samples))) := by
    intro m hm
    rw [leaf_weights (hgood m hm).1, hin m hm]
    have : ((m.samples.getD []).map fun x => XF.fin (p x * m.vol)) = ((m.samples.getD []).map fun x => p x * m.vol).map XF.fin := by
      rw [List.map_map]
      rfl
    rw [this, XF.sum_map_fin, List.sum_map_mul_right, sum_average]
    congr 1
    ring
  refine ⟨?_, ?_⟩
  · intro m hm
    unfold weightIn
    rw [hs, hw, zip_leaves L fun m hm => (hgood m hm).1, filter_leaf hdis (fun m hm => (hgood m hm).1.mem) hm, List.map_map,
      ← hs, ← hsum m hm, leaf_weights (hgood m hm).1]
    rfl
  · rw [hw]
    clear_value L
    clear hL
    have key : ∀ L' : List (Node ℝ d), (∀ m ∈ L', m ∈ L) → (L'.flatMap Node.weights).sum = .fin (L'.map fun m =>
        (within m S'.samples).length * (m.vol * average p (within m S'.samples))).sum := by
      intro L' h'
      induction L' with
      | nil => rfl
      | cons m L' ih =>
        rw [List.flatMap_cons, List.sum_append, ih fun n hn => h' n (List.mem_cons_of_mem _ hn), hsum m (h' m List.mem_cons_self),
          List.map_cons, List.sum_cons, XF.fin_add]
    exact key L fun m hm => hm

/-- The share of a leaf in the reported density. -/
theorem density_share (hbox : ∀ i, lo i < hi i) {c : Cfg ℝ} {p : Pt ℝ d → ℝ} (hp : ∀ x, 0 ≤ p x) {S S' : Sampler ℝ d}
    (hS : Reach lo hi c (fun x => .fin (p x)) S) {n : ℕ} {its : ℕ → Iter ℝ d}
    (h : importanceSample c (fun x => .fin (p x)) n its S = .ok S') (hpos : ∃ x ∈ S'.samples, 0 < p x) :
    0 < (S'.T.leafNodes.map fun m => m.vol * average p (within m S'.samples)).sum ∧
    ∃ f : Pt ℝ d → ℝ, (∀ x, prob S' [x] = [.fin (f x)]) ∧ ∀ m ∈ S'.T.leafNodes, ∫ x in {x | m.Has x}, f x =
      m.vol * average p (within m S'.samples) / (S'.T.leafNodes.map fun m => m.vol * average p (within m S'.samples)).sum := by
  classical
  obtain ⟨f, h1, -, -, -, -, -, h7⟩ := C90_partial hbox hp hS h hpos
  obtain ⟨hg, hs, -, -⟩ := call_model hbox hS h
  have hgood := fun m hm => leafNodes_good (m := m) hg hm
  have hrad : ∀ m ∈ S'.T.leafNodes, ∀ i, 0 < m.radius i := fun m hm => (hgood m hm).1.pos
  refine ⟨?_, f, fun x => by rw [h1]; rfl, ?_⟩
  · obtain ⟨x, hx, hpx⟩ := hpos
    have hx' := hx
    rw [hs] at hx
    obtain ⟨m, hm, hxm⟩ := List.mem_flatMap.1 hx
    have hxw : x ∈ within m S'.samples := by
      unfold within
      rw [List.mem_filter]
      exact ⟨hx', decide_eq_true ((hgood m hm).1.mem x hxm)⟩
    refine lt_of_lt_of_le (mul_pos (vol_pos (hrad m hm)) (average_pos hp hxw hpx))
      (List.single_le_sum ?_ _ (List.mem_map.2 ⟨m, hm, rfl⟩))
    intro y hy
    obtain ⟨k, hk, rfl⟩ := List.mem_map.1 hy
    exact mul_nonneg (vol_pos (hrad k hk)).le (average_nonneg hp _)
  · intro m hm
    have hset : {x | m.Has x} = Set.univ.pi fun i => Set.Ioc (m.center i - m.radius i) (m.center i + m.radius i) := by
      ext x
      simp [Node.Has, InBox]
    have hmeas : MeasurableSet {x | m.Has x} := by
      rw [hset]
      exact MeasurableSet.univ_pi fun i => measurableSet_Ioc
    rw [setIntegral_congr_fun hmeas (g := fun _ => average p (within m S'.samples) /
      (S'.T.leafNodes.map fun m => m.vol * average p (within m S'.samples)).sum) (fun x hx => h7 m hm x hx)]
    rw [setIntegral_const]
    have hvol : volume.real {x | m.Has x} = m.vol := by
      rw [hset, measureReal_def, Real.volume_pi_Ioc_toReal]
      · unfold Node.vol
        refine Finset.prod_congr rfl fun i _ => ?_
        ring
      · intro i
        have := hrad m hm i
        show m.center i - m.radius i ≤ m.center i + m.radius i
        linarith
    rw [hvol, smul_eq_mul]
    ring

/-- C121: what holds. When all leaves in which mass was found hold the same number of samples, the weighted samples and the
reported density give every leaf the same share. Missing with respect to C121: leaves with different numbers of samples, for
which `C121_weights` says what the shares are instead. -/
theorem C121_partial (hbox : ∀ i, lo i < hi i) {c : Cfg ℝ} {p : Pt ℝ d → ℝ} (hp : ∀ x, 0 ≤ p x) {S S' : Sampler ℝ d}
    (hS : Reach lo hi c (fun x => .fin (p x)) S) {n : ℕ} {its : ℕ → Iter ℝ d}
    (h : importanceSample c (fun x => .fin (p x)) n its S = .ok S') (hpos : ∃ x ∈ S'.samples, 0 < p x) (k : ℕ)
    (hk : ∀ m ∈ S'.T.leafNodes, (∃ x ∈ within m S'.samples, 0 < p x) → (within m S'.samples).length = k) :
    ∀ m ∈ S'.T.leafNodes, SameShare S' m := by
  classical
  obtain ⟨h1, h2⟩ := C121_weights hbox hS h
  obtain ⟨hZ, f, h3, h4⟩ := density_share hbox hp hS h hpos
  have hk' : ∀ m ∈ S'.T.leafNodes, ((within m S'.samples).length : ℝ) * (m.vol * average p (within m S'.samples)) =
      k * (m.vol * average p (within m S'.samples)) := by
    intro m hm
    by_cases hx : ∃ x ∈ within m S'.samples, 0 < p x
    · rw [hk m hm hx]
    · push Not at hx
      have : average p (within m S'.samples) = 0 := by
        unfold average
        split
        · rfl
        · rw [List.sum_eq_zero, zero_div]
          intro y hy
          obtain ⟨x, hxm, rfl⟩ := List.mem_map.1 hy
          exact le_antisymm (hx x hxm) (hp x)
      rw [this]
      ring
  have hk0 : (k : ℝ) ≠ 0 := by
    obtain ⟨x, hx, hpx⟩ := hpos
    obtain ⟨hg, hs, -, -⟩ := call_model hbox hS h
    have hx' := hx
    rw [hs] at hx
    obtain ⟨m, hm, hxm⟩ := List.mem_flatMap.1 hx
    have hxw : x ∈ within m S'.samples := by
      unfold within
      rw [List.mem_filter]
      exact ⟨hx', decide_eq_true ((leafNodes_good hg hm).1.mem x hxm)⟩
    rw [← hk m hm ⟨x, hxw, hpx⟩]
    exact_mod_cast (List.length_pos_of_mem hxw).ne'
  intro m hm
  refine ⟨_, _, f, h1 m hm, h2, h3, ?_⟩
  rw [h4 m hm, hk' m hm, List.map_congr_left hk', List.sum_map_mul_left, mul_div_mul_left _ _ hk0]

/-! ### Witness -/

/-- The tree of the witness after its third sample. -/
noncomputable def T3r (q q' : XF ℝ) : Tree ℝ 1 :=
  ⟨[nd 0 1 q (some 1) (some 2) none [XF.fin 2, XF.fin 0] 2 (XF.fin 1),
    nd (-1/2) (1/2) (XF.fin (1/2)) none none (some [![-3/4], ![-7/8]]) [XF.fin 1, XF.fin 0] 2 (XF.fin 1),
    nd (1/2) (1/2) q' none none (some [![1/2]]) [XF.fin 1] 1 (XF.fin 1)], [1, 2]⟩

theorem step3r (σ : ℝ) : ∃ q q', iterate (cfg σ) tgt 2 ⟨fun _ => 1, ![1/2], 0⟩ T2 = .ok (T3r q q', 1) := by
  have hp : ∀ q l rr s w N e, (nd (1/2) (1/2) q l rr s w N e).sampler.prob1 ![1/2] = XF.fin (1) := fun q l rr s w N e => by
    rw [nd_prob] <;> norm_num
  have hx : ∀ q l rr s w N e, (nd (1/2) (1/2) q l rr s w N e).sampler.sample1 ![1/2] = ![1/2] := fun q l rr s w N e => by
    rw [nd_sample]; norm_num
  have ht : tgt ![1/2] = XF.fin 1 := by norm_num [tgt]
  have hsel : T2.select (fun _ => 1) 3 0 [0] 0 = .ok ([0, 0], 2) := by
    norm_num [Tree.select, T2, nd, XF.fin_div, XF.ltb]
  unfold iterate
  rw [show T2.nodes.length = 3 from rfl, hsel]
  unfold T2
  simp only [List.getElem?_cons_zero, List.getElem?_cons_succ, hx, hp, ht, nd_add]
  rw [if_neg (by norm_num [XF.ltb])]
  rw [if_neg (by norm_num [XF.ltb, XF.fin_div, cfg, nd])]
  simp [XF.fin_div, nd, refreshQ, T3r]

/-- The call of the witness: three samples, two of them in the left half, of which one has target density 0. -/
theorem call3r (σ : ℝ) : ∃ (its : ℕ → Iter ℝ 1) (S' : Sampler ℝ 1) (q q' : XF ℝ),
    importanceSample (cfg σ) (fun x => .fin (stepDensity x)) 3 its (reset ![-1] ![1]) = .ok S' ∧ S'.T = T3r q q' ∧
    S'.samples = [![-3/4], ![-7/8], ![1/2]] := by
  rw [← tgt_eq]
  obtain ⟨q, q', h3⟩ := step3r σ
  have h1 := step1 σ
  have h2 := step2 σ
  have hr : List.range 3 = [0, 1, 2] := rfl
  refine ⟨fun k => if k = 0 then ⟨fun _ => 0, ![1/8], 0⟩ else if k = 1 then ⟨fun _ => 0, ![1/16], 0⟩ else
    ⟨fun _ => 1, ![1/2], 0⟩, ?_⟩
  obtain ⟨S', e1, e2, e3⟩ := importance_of (c := cfg σ) (target := tgt) (n := 3)
    (its := fun k => if k = 0 then ⟨fun _ => 0, ![1/8], 0⟩ else if k = 1 then ⟨fun _ => 0, ![1/16], 0⟩ else
    ⟨fun _ => 1, ![1/2], 0⟩) (S := reset ![-1] ![1]) (S1 := { reset ![-1] ![1] with
      T := T3r q q', numQ := 3, numPi := 5, numQEval := 5 })
    (by simp [reset, hr, iterations, h1, h2, h3, -one_div])
  exact ⟨S', q, q', e1, e2, e3⟩

theorem within_cons_pos (m : Node ℝ d) (x : Pt ℝ d) (xs : List (Pt ℝ d)) (h : m.Has x) :
    within m (x :: xs) = x :: within m xs := by
  classical
  unfold within
  rw [List.filter_cons_of_pos (by simpa using h)]

theorem within_cons_neg (m : Node ℝ d) (x : Pt ℝ d) (xs : List (Pt ℝ d)) (h : ¬ m.Has x) :
    within m (x :: xs) = within m xs := by
  unfold within
  rw [List.filter_cons_of_neg (by simpa using h)]

theorem nd_has (c r x : ℝ) (q l rr s w N e) : (nd c r q l rr s w N e).Has ![x] ↔ c - r < x ∧ x ≤ c + r := by
  constructor
  · intro h
    exact h 0
  · intro h i
    rw [Fin.fin_one_eq_zero i]
    exact h

theorem nd_vol (c r : ℝ) (q l rr s w N e) : (nd c r q l rr s w N e).vol = 2 * r := by simp [Node.vol, nd]

/-- **C121** (negation) A call for three samples on the interval from -1 to 1 with `n_min = 1` and `ess_target = 0.7`, for a
target that is 1 right of -4/5 and 0 elsewhere. Two samples are in the left half, where the estimated mass is 1/2, and one is
in the right half, where it is 1: the reported density gives the left half probability 1/3, the weighted samples 1/2. -/
theorem C121_refuted (σ : ℝ) : ∃ (its : ℕ → Iter ℝ 1) (S' : Sampler ℝ 1) (m : Node ℝ 1),
    Reach ![-1] ![1] (cfg σ) (fun x => .fin (stepDensity x)) (reset ![-1] ![1]) ∧
    importanceSample (cfg σ) (fun x => .fin (stepDensity x)) 3 its (reset ![-1] ![1]) = .ok S' ∧
    m ∈ S'.T.leafNodes ∧ weightIn m S' = .fin 1 ∧ S'.weights.sum = .fin 2 ∧
    (∃ f : Pt ℝ 1 → ℝ, (∀ x, prob S' [x] = [.fin (f x)]) ∧ ∫ x in {x | m.Has x}, f x = 1 / 3) ∧ ¬ SameShare S' m := by
  have hbox : ∀ i, (![-1] : Pt ℝ 1) i < (![1] : Pt ℝ 1) i := by
    intro i
    rw [Fin.fin_one_eq_zero i]
    norm_num
  have hp : ∀ x, 0 ≤ stepDensity x := fun x => by unfold stepDensity; split <;> norm_num
  obtain ⟨its, S', q, q', h1, h2, h3⟩ := call3r σ
  set a := nd (-1/2) (1/2) (XF.fin (1/2)) none none (some [![-3/4], ![-7/8]]) [XF.fin 1, XF.fin 0] 2 (XF.fin 1) with ha
  set b := nd (1/2) (1/2) q' none none (some [![1/2]]) [XF.fin 1] 1 (XF.fin 1) with hb
  have hL : S'.T.leafNodes = [a, b] := by
    rw [h2]
    simp [Tree.leafNodes, T3r, ha, hb]
  have wa : within a S'.samples = [![-3/4], ![-7/8]] := by
    rw [h3, within_cons_pos, within_cons_pos, within_cons_neg]
    · rfl
    · rw [ha, nd_has]; norm_num
    · rw [ha, nd_has]; norm_num
    · rw [ha, nd_has]; norm_num
  have wb : within b S'.samples = [![1/2]] := by
    rw [h3, within_cons_neg, within_cons_neg, within_cons_pos]
    · rfl
    · rw [hb, nd_has]; norm_num
    · rw [hb, nd_has]; norm_num
    · rw [hb, nd_has]; norm_num
  have va : a.vol = 1 := by rw [ha, nd_vol]; norm_num
  have vb : b.vol = 1 := by rw [hb, nd_vol]; norm_num
  have aa : average stepDensity [![-3/4], ![-7/8]] = 1 / 2 := by
    rw [average, if_neg (List.cons_ne_nil _ _)]
    norm_num [stepDensity]
  have ab : average stepDensity [![1/2]] = 1 := by
    norm_num [average, stepDensity]
  have hpos : ∃ x ∈ S'.samples, 0 < stepDensity x := ⟨![1/2], by rw [h3]; simp, by norm_num [stepDensity]⟩
  obtain ⟨e1, e2⟩ := C121_weights hbox .new h1
  obtain ⟨-, f, e3, e4⟩ := density_share hbox hp .new h1 hpos
  have e1 := e1 a (by rw [hL]; simp)
  have e4 := e4 a (by rw [hL]; simp)
  rw [hL] at e2 e4
  simp only [List.map_cons, List.map_nil, List.sum_cons, List.sum_nil, wa, wb, va, vb, aa, ab] at e1 e2 e4
  norm_num at e1 e2 e4
  refine ⟨its, S', a, .new, h1, by rw [hL]; simp, e1, e2, ⟨f, e3, by rw [e4]⟩, ?_⟩
  rintro ⟨w, W, g, g1, g2, g3, g4⟩
  have hfg : g = f := by
    funext x
    have := (g3 x).symm.trans (e3 x)
    simpa using this
  rw [e1] at g1
  rw [e2] at g2
  cases g1
  cases g2
  rw [hfg, e4] at g4
  norm_num at g4

/-- Non-vacuity of `C121_partial`: before the first split there is one leaf. -/
example : ∃ (its : ℕ → Iter ℝ 1) (S' : Sampler ℝ 1),
    importanceSample (cfg 1) (fun x => .fin (stepDensity x)) 1 its (reset ![-1] ![1]) = .ok S' ∧
    (∃ x ∈ S'.samples, 0 < stepDensity x) ∧
    ∀ m ∈ S'.T.leafNodes, (∃ x ∈ within m S'.samples, 0 < stepDensity x) → (within m S'.samples).length = 1 := by
  rw [← tgt_eq]
  have h1 := step1 1
  have hr : List.range 1 = [0] := rfl
  obtain ⟨S', e1, e2, e3⟩ := importance_of (c := cfg 1) (target := tgt) (n := 1)
    (its := fun _ => ⟨fun _ => 0, ![1/8], 0⟩) (S := reset ![-1] ![1]) (S1 := { reset ![-1] ![1] with
      T := T1, numQ := 1, numPi := 1, numQEval := 1 })
    (by simp [reset, hr, iterations, h1, -one_div])
  have e3 : S'.samples = [![-3/4]] := e3
  refine ⟨_, S', e1, ⟨![-3/4], by rw [e3]; simp, by norm_num [stepDensity]⟩, ?_⟩
  rintro m hm ⟨x, hx, -⟩
  have h5 : 0 < (within m S'.samples).length := List.length_pos_of_mem hx
  have h6 : (within m S'.samples).length ≤ 1 := by
    rw [e3]
    unfold within
    exact (List.length_filter_le _ _).trans (by simp)
  omega

end HiD
end Verif
