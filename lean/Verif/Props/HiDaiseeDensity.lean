import Verif.Props.HiDaisee
import Verif.Props.HiDaiseeMass
import Verif.Props.Mixture
import Verif.Props.Uniform

/-!
# Property C90: the density HiDaisee reports
-/

set_option linter.unusedSectionVars false
set_option autoImplicit false

namespace Verif
namespace HiD

open MeasureTheory

variable {d : ℕ} {lo hi : Pt ℝ d}

/-! ### Specification -/

/-- Average of `p` over a list of points, 0 for the empty list. -/
noncomputable def average (p : Pt ℝ d → ℝ) (xs : List (Pt ℝ d)) : ℝ := if xs = [] then 0 else (xs.map p).sum / xs.length

open Classical in
/-- The points of the list in the box of a node. -/
noncomputable def within (m : Node ℝ d) (xs : List (Pt ℝ d)) : List (Pt ℝ d) := xs.filter fun x => m.Has x

/-! ### Proof -/

theorem disjoint_leaves {T : Tree ℝ d} {target : Pt ℝ d → XF ℝ} (hg : Good lo hi target T) :
    T.leafNodes.Pairwise fun a b => ∀ x, ¬ (a.Has x ∧ b.Has x) := by
  unfold Tree.leafNodes
  rw [List.pairwise_filterMap]
  refine hg.nodup.imp_of_mem ?_
  intro a b ha hb hne n hn m hm x hx
  obtain ⟨q, nq, -, h2⟩ := hg.tile x (hg.sub a ha n hn x hx.1)
  exact hne ((h2 a n ha hn hx.1).trans (h2 b m hb hm hx.2).symm)

theorem leafNodes_good {T : Tree ℝ d} {target : Pt ℝ d → XF ℝ} (hg : Good lo hi target T) {m : Node ℝ d}
    (hm : m ∈ T.leafNodes) : GoodLeaf target m (m.samples.getD []) ∧ ∀ x, m.Has x → InBox lo hi x := by
  obtain ⟨p, hp, hpm⟩ := List.mem_filterMap.1 hm
  obtain ⟨m', xs, e1, e2⟩ := hg.leaf p hp
  rw [hpm] at e1
  cases e1
  rw [e2.samples]
  exact ⟨e2, hg.sub p hp m hpm⟩

theorem within_eq {L : List (Node ℝ d)} (hd : L.Pairwise fun a b => ∀ x, ¬ (a.Has x ∧ b.Has x))
    (hL : ∀ m ∈ L, ∀ x ∈ m.samples.getD [], m.Has x) {m : Node ℝ d} (hm : m ∈ L) :
    within m (L.flatMap fun n => n.samples.getD []) = m.samples.getD [] := by
  classical
  obtain ⟨l1, l2, rfl⟩ := List.append_of_mem hm
  rw [List.pairwise_append, List.pairwise_cons] at hd
  obtain ⟨-, ⟨h2, -⟩, h1⟩ := hd
  have z1 : within m (l1.flatMap fun n => n.samples.getD []) = [] := by
    unfold within
    rw [List.filter_eq_nil_iff]
    intro x hx
    obtain ⟨n, hn, hxn⟩ := List.mem_flatMap.1 hx
    have := h1 n hn m List.mem_cons_self x
    have h3 := hL n (List.mem_append_left _ hn) x hxn
    simp only [decide_eq_true_eq]
    exact fun h => this ⟨h3, h⟩
  have z2 : within m (l2.flatMap fun n => n.samples.getD []) = [] := by
    unfold within
    rw [List.filter_eq_nil_iff]
    intro x hx
    obtain ⟨n, hn, hxn⟩ := List.mem_flatMap.1 hx
    have := h2 n hn x
    have h3 := hL n (List.mem_append_right _ (List.mem_cons_of_mem _ hn)) x hxn
    simp only [decide_eq_true_eq]
    exact fun h => this ⟨h, h3⟩
  have z3 : within m (m.samples.getD []) = m.samples.getD [] := by
    unfold within
    rw [List.filter_eq_self]
    intro x hx
    exact decide_eq_true (hL m hm x hx)
  rw [List.flatMap_append, List.flatMap_cons]
  unfold within at z1 z2 z3 ⊢
  rw [List.filter_append, List.filter_append, z1, z2, z3]
  simp

theorem average_nonneg {p : Pt ℝ d → ℝ} (hp : ∀ x, 0 ≤ p x) (xs : List (Pt ℝ d)) : 0 ≤ average p xs := by
  unfold average
  split
  · exact le_rfl
  · refine div_nonneg (List.sum_nonneg ?_) (Nat.cast_nonneg _)
    intro y hy
    obtain ⟨x, -, rfl⟩ := List.mem_map.1 hy
    exact hp x

theorem average_pos {p : Pt ℝ d → ℝ} (hp : ∀ x, 0 ≤ p x) {xs : List (Pt ℝ d)} {x : Pt ℝ d} (hx : x ∈ xs) (h : 0 < p x) :
    0 < average p xs := by
  have hne : xs ≠ [] := List.ne_nil_of_mem hx
  unfold average
  rw [if_neg hne]
  refine div_pos (h.trans_le (List.single_le_sum ?_ _ (List.mem_map.2 ⟨x, hx, rfl⟩)))
    (by exact_mod_cast List.length_pos_of_ne_nil hne)
  intro y hy
  obtain ⟨x, -, rfl⟩ := List.mem_map.1 hy
  exact hp x

/-- What the weight of a leaf is cleaned to. -/
theorem mean_good {p : Pt ℝ d → ℝ} (hp : ∀ x, 0 ≤ p x) {m : Node ℝ d} {xs : List (Pt ℝ d)}
    (h : GoodLeaf (fun x => .fin (p x)) m xs) : m.mean ≠ .pinf ∧ cleanVal m.mean = m.vol * average p xs ∧
    (xs ≠ [] → m.mean = .fin (m.vol * average p xs)) := by
  have hv := vol_pos h.pos
  have hw : m.weights = (xs.map fun x => p x * m.vol).map XF.fin := by
    rw [h.weights, List.map_map]
    refine List.map_congr_left fun x hx => ?_
    rw [prob1_has h.pos (h.mem x hx), XF.fin_div_ne _ _ (one_div_pos.2 hv).ne', div_div_eq_mul_div, div_one]
    rfl
  unfold Node.mean
  rw [hw, XF.sum_map_fin, List.length_map, List.length_map, List.sum_map_mul_right, mul_comm]
  by_cases hx : xs = []
  · subst hx
    simp [XF.fin_div, XF.infMul, average, cleanVal]
  · have hl : (0 : ℝ) < xs.length := by exact_mod_cast List.length_pos_of_ne_nil hx
    have e : m.vol * (xs.map p).sum / xs.length = m.vol * average p xs := by
      rw [average, if_neg hx, mul_div_assoc]
    rw [XF.fin_div_ne _ _ hl.ne', e]
    refine ⟨by simp, ?_, fun _ => rfl⟩
    have h0 := mul_nonneg hv.le (average_nonneg hp xs)
    show (if 0 < m.vol * average p xs then m.vol * average p xs else 0) = _
    split
    · rfl
    · linarith

theorem leaf_density {m : Node ℝ d} (hp : ∀ i, 0 < m.radius i) :
    (∀ x, IsLogDensity ((⟨m.center, m.radius, ∏ i, m.radius i * 2⟩ : Uniform ℝ d).logProb1 x)) ∧
    (∀ x, densOf ((⟨m.center, m.radius, ∏ i, m.radius i * 2⟩ : Uniform ℝ d).logProb1 x) =
      uniformDensity m.center m.radius x) ∧
    Integrable (uniformDensity m.center m.radius) ∧ ∫ x, uniformDensity m.center m.radius x = 1 := by
  obtain ⟨U, hU, h1, h2, h3, h4⟩ := C06_uniform_density m.center (List.ofFn m.radius) m.radius (.inr rfl) hp
  obtain ⟨U', hU', e1, e2, e3⟩ := Uniform.mk'_of_radius m.center (List.ofFn m.radius) m.radius (.inr rfl)
  rw [hU] at hU'
  cases hU'
  have hUe : U = ⟨m.center, m.radius, ∏ i, m.radius i * 2⟩ := by
    cases U
    simp only at e1 e2 e3
    subst e1 e2 e3
    congr 1
    exact Finset.prod_congr rfl fun i _ => mul_comm _ _
  rw [← hUe]
  have hnn : ∀ x, 0 ≤ uniformDensity m.center m.radius x := by
    intro x
    unfold uniformDensity
    refine Set.indicator_nonneg (fun _ _ => ?_) x
    exact one_div_nonneg.2 (Finset.prod_nonneg fun i _ => by have := hp i; linarith)
  refine ⟨fun x => ?_, fun x => ?_, h3, h4⟩
  · rw [h2]
    split
    · exact .inl rfl
    · exact .inr ⟨_, rfl⟩
  · rw [h2]
    split
    · rename_i h; rw [h]; rfl
    · rename_i h
      exact Real.exp_log (lt_of_le_of_ne (hnn x) (Ne.symm h))

theorem uniform_has {m : Node ℝ d} {x : Pt ℝ d} (h : m.Has x) : uniformDensity m.center m.radius x = 1 / m.vol := by
  have : x ∈ Set.univ.pi fun i => Set.Ioc (m.center i - m.radius i) (m.center i + m.radius i) := fun i _ => h i
  exact Set.indicator_of_mem this _

theorem uniform_not {m : Node ℝ d} {x : Pt ℝ d} (h : ¬ m.Has x) : uniformDensity m.center m.radius x = 0 := by
  have : x ∉ Set.univ.pi fun i => Set.Ioc (m.center i - m.radius i) (m.center i + m.radius i) :=
    fun h' => h fun i => h' i trivial
  exact Set.indicator_of_notMem this _

/-- What a call leaves in the sampler. -/
theorem call_model (hbox : ∀ i, lo i < hi i) {c : Cfg ℝ} {target : Pt ℝ d → XF ℝ} {S S' : Sampler ℝ d}
    (hS : Reach lo hi c target S) {n : ℕ} {its : ℕ → Iter ℝ d} (h : importanceSample c target n its S = .ok S') :
    Good lo hi target S'.T ∧ S'.samples = (S'.T.leafNodes.flatMap fun n => n.samples.getD []) ∧
    S'.model.1 = S'.T.leafNodes.map (fun n => (n.center, n.radius)) ∧
    setWeights S'.T.leafNodes.length (S'.T.leafNodes.map Node.mean) = .ok S'.model.2 := by
  obtain ⟨r1, -⟩ := reach_spec hbox hS
  obtain ⟨h1, h2, -⟩ := importance_spec hbox r1 h
  refine ⟨treach_good hbox h1, h2, ?_⟩
  unfold importanceSample at h
  split at h
  · cases h
  · rename_i S1 h1
    unfold updateModel at h
    cases hw : setWeights S1.T.leafNodes.length (S1.T.leafNodes.map Node.mean) with
    | error e => rw [hw] at h; cases h
    | ok w =>
      rw [hw] at h
      have h := Except.ok.inj h
      subst h
      exact ⟨rfl, hw⟩

theorem mixture_sum (x : Pt ℝ d) (g : Node ℝ d → ℝ) : ∀ (L : List (Node ℝ d)), (∀ m ∈ L, ∀ i, 0 < m.radius i) →
    mixDensity ((L.map fun n => (n.center, n.radius)).map
        fun b => (⟨b.1, b.2, ∏ i, b.2 i * 2⟩ : Uniform ℝ d).logProb1) (L.map g) x =
      (L.map fun m => g m * uniformDensity m.center m.radius x).sum
  | [], _ => rfl
  | m :: L, h => by
    have ih := mixture_sum x g L fun m hm => h m (List.mem_cons_of_mem _ hm)
    unfold mixDensity at ih ⊢
    simp only [List.map_cons, List.zipWith_cons_cons, List.sum_cons, ih,
      (leaf_density (h m List.mem_cons_self)).2.1]

/-- **C90**: after a call of which at least one sample has positive target density, the sampler reports a probability
density. It is 0 outside the space; in each leaf it is constant: the average target density over the samples in that leaf,
divided by the sum over the leaves of volume times average. So the leaves get probability in proportion to the estimated mass
of the target, and leaves without sample get none. Missing from the full claim: calls whose samples all have target density 0
(`C90_refuted`). -/
theorem C90_partial (hbox : ∀ i, lo i < hi i) {c : Cfg ℝ} {p : Pt ℝ d → ℝ} (hp : ∀ x, 0 ≤ p x) {S S' : Sampler ℝ d}
    (hS : Reach lo hi c (fun x => .fin (p x)) S) {n : ℕ} {its : ℕ → Iter ℝ d}
    (h : importanceSample c (fun x => .fin (p x)) n its S = .ok S') (hpos : ∃ x ∈ S'.samples, 0 < p x) :
    ∃ f : Pt ℝ d → ℝ, (∀ data, prob S' data = data.map fun x => .fin (f x)) ∧
      (∀ data, logProb S' data = data.map fun x => if f x = 0 then .ninf else .fin (Real.log (f x))) ∧
      (∀ x, 0 ≤ f x) ∧ Integrable f ∧ ∫ x, f x = 1 ∧ (∀ x, ¬ InBox lo hi x → f x = 0) ∧
      ∀ m ∈ S'.T.leafNodes, ∀ x, m.Has x → f x = average p (within m S'.samples) /
        (S'.T.leafNodes.map fun m => m.vol * average p (within m S'.samples)).sum := by
  obtain ⟨hg, hs, hm1, hm2⟩ := call_model hbox hS h
  set L := S'.T.leafNodes with hL
  have hdis := disjoint_leaves hg
  have hgood := fun m hm => leafNodes_good (m := m) hg hm
  have hw : ∀ m ∈ L, within m S'.samples = m.samples.getD [] := fun m hm => by
    rw [hs]
    exact within_eq hdis (fun m hm => (hgood m hm).1.mem) hm
  have hrad : ∀ m ∈ L, ∀ i, 0 < m.radius i := fun m hm => (hgood m hm).1.pos
  set Z := (L.map fun m => m.vol * average p (within m S'.samples)).sum with hZ
  have hcl : ∀ m ∈ L, cleanVal m.mean = m.vol * average p (within m S'.samples) := fun m hm => by
    rw [hw m hm]
    exact (mean_good hp (hgood m hm).1).2.1
  have hpos' : ∃ x, 0 < x ∧ XF.fin x ∈ L.map Node.mean := by
    obtain ⟨x, hx, hpx⟩ := hpos
    rw [hs] at hx
    obtain ⟨m, hm, hxm⟩ := List.mem_flatMap.1 hx
    refine ⟨m.vol * average p (m.samples.getD []), mul_pos (vol_pos (hrad m hm)) (average_pos hp hxm hpx), ?_⟩
    rw [← (mean_good hp (hgood m hm).1).2.2 (List.ne_nil_of_mem hxm)]
    exact List.mem_map_of_mem hm
  have hinf : XF.pinf ∉ L.map Node.mean := by
    intro hc
    obtain ⟨m, hm, e⟩ := List.mem_map.1 hc
    exact (mean_good hp (hgood m hm).1).1 e
  have hsum : ((L.map Node.mean).map cleanVal).sum = Z := by
    rw [List.map_map, hZ]
    congr 1
    exact List.map_congr_left hcl
  have hZpos : 0 < Z := hsum ▸ sum_clean_pos _ hpos'
  have hwts : S'.model.2 = (L.map fun m => m.vol * average p (within m S'.samples) / Z).map XF.fin := by
    have e := setWeights_eq (L.map Node.mean) hpos' hinf
    rw [List.length_map, hm2, hsum, List.map_map] at e
    rw [Except.ok.inj e, List.map_map, List.map_map]
    refine List.map_congr_left fun m hm => ?_
    simp only [Function.comp_apply]
    rw [hcl m hm]
  have hmix : mixture S' = ⟨(L.map fun n => (n.center, n.radius)).map
      fun b => (⟨b.1, b.2, ∏ i, b.2 i * 2⟩ : Uniform ℝ d).logProb1,
      (L.map fun m => m.vol * average p (within m S'.samples) / Z).map XF.fin⟩ := by
    unfold mixture
    rw [hm1, hwts]
  have hlog : ∀ f ∈ (L.map fun n => (n.center, n.radius)).map
      (fun b => (⟨b.1, b.2, ∏ i, b.2 i * 2⟩ : Uniform ℝ d).logProb1), ∀ x, IsLogDensity (f x) := by
    intro f hf x
    rw [List.map_map] at hf
    obtain ⟨m, hm, rfl⟩ := List.mem_map.1 hf
    exact (leaf_density (hrad m hm)).1 x
  have hw0 : ∀ m ∈ L, 0 ≤ m.vol * average p (within m S'.samples) / Z := fun m hm =>
    div_nonneg (mul_nonneg (vol_pos (hrad m hm)).le (average_nonneg hp _)) hZpos.le
  have hf0 : ∀ x, 0 ≤ mixDensity ((L.map fun n => (n.center, n.radius)).map
      fun b => (⟨b.1, b.2, ∏ i, b.2 i * 2⟩ : Uniform ℝ d).logProb1)
      (L.map fun m => m.vol * average p (within m S'.samples) / Z) x := by
    intro x
    rw [mixture_sum x _ L hrad]
    refine List.sum_nonneg fun y hy => ?_
    obtain ⟨m, hm, rfl⟩ := List.mem_map.1 hy
    refine mul_nonneg (hw0 m hm) ?_
    by_cases hx : m.Has x
    · rw [uniform_has hx]
      exact one_div_nonneg.2 (vol_pos (hrad m hm)).le
    · rw [uniform_not hx]
  have hint := mixDensity_integral (volume : Measure (Pt ℝ d)) ((L.map fun n => (n.center, n.radius)).map
      fun b => (⟨b.1, b.2, ∏ i, b.2 i * 2⟩ : Uniform ℝ d).logProb1)
      (L.map fun m => m.vol * average p (within m S'.samples) / Z) (by simp)
      (by
        intro f hf
        rw [List.map_map] at hf
        obtain ⟨m, hm, rfl⟩ := List.mem_map.1 hf
        exact (leaf_density (hrad m hm)).2.2.1.congr (.of_forall fun x => ((leaf_density (hrad m hm)).2.1 x).symm))
      (by
        intro f hf
        rw [List.map_map] at hf
        obtain ⟨m, hm, rfl⟩ := List.mem_map.1 hf
        exact (integral_congr_ae (.of_forall fun x => (leaf_density (hrad m hm)).2.1 x)).trans
          (leaf_density (hrad m hm)).2.2.2)
  refine ⟨_, ?_, ?_, hf0, hint.1, ?_, ?_, ?_⟩
  · intro data
    unfold prob
    rw [hmix]
    exact Mixture.prob_eq _ _ hlog data
  · intro data
    unfold logProb
    rw [hmix, Mixture.logProb_eq _ _ hlog (by
      intro y hy
      obtain ⟨m, hm, rfl⟩ := List.mem_map.1 hy
      exact hw0 m hm)]
    refine List.map_congr_left fun x _ => ?_
    exact if_neg (not_lt.mpr (hf0 x))
  · rw [hint.2, sum_map_div, ← hZ, div_self hZpos.ne']
  · intro x hx
    rw [mixture_sum x _ L hrad]
    refine List.sum_eq_zero fun y hy => ?_
    obtain ⟨m, hm, rfl⟩ := List.mem_map.1 hy
    rw [uniform_not fun h => hx ((hgood m hm).2 x h), mul_zero]
  · intro m hm x hx
    rw [mixture_sum x _ L hrad]
    obtain ⟨l1, l2, e⟩ := List.append_of_mem hm
    have hdis' := hdis
    rw [← hL, e, List.pairwise_append, List.pairwise_cons] at hdis'
    obtain ⟨-, ⟨h2, -⟩, h1⟩ := hdis'
    have z1 : (l1.map fun m => m.vol * average p (within m S'.samples) / Z * uniformDensity m.center m.radius x).sum = 0 := by
      refine List.sum_eq_zero fun y hy => ?_
      obtain ⟨k, hk, rfl⟩ := List.mem_map.1 hy
      rw [uniform_not fun hkx => h1 k hk m List.mem_cons_self x ⟨hkx, hx⟩, mul_zero]
    have z2 : (l2.map fun m => m.vol * average p (within m S'.samples) / Z * uniformDensity m.center m.radius x).sum = 0 := by
      refine List.sum_eq_zero fun y hy => ?_
      obtain ⟨k, hk, rfl⟩ := List.mem_map.1 hy
      rw [uniform_not fun hkx => h2 k hk x ⟨hx, hkx⟩, mul_zero]
    rw [e, List.map_append, List.sum_append, List.map_cons, List.sum_cons, z1, z2, uniform_has hx]
    have := vol_pos (hrad m hm)
    field_simp
    ring

/-- **C90**, otherwise: if no sample has positive target density, the sampler reports 0 everywhere. -/
theorem C90_no_mass (hbox : ∀ i, lo i < hi i) {c : Cfg ℝ} {p : Pt ℝ d → ℝ} (hp : ∀ x, 0 ≤ p x) {S S' : Sampler ℝ d}
    (hS : Reach lo hi c (fun x => .fin (p x)) S) {n : ℕ} {its : ℕ → Iter ℝ d}
    (h : importanceSample c (fun x => .fin (p x)) n its S = .ok S') (hz : ∀ x ∈ S'.samples, p x = 0)
    (data : List (Pt ℝ d)) : prob S' data = data.map fun _ => .fin 0 := by
  obtain ⟨hg, hs, hm1, hm2⟩ := call_model hbox hS h
  have hgood := fun m hm => leafNodes_good (m := m) hg hm
  set L := S'.T.leafNodes with hL
  have hbad : ∀ w ∈ L.map Node.mean, badWeight w = true := by
    intro w hw
    obtain ⟨m, hm, rfl⟩ := List.mem_map.1 hw
    by_cases hx : m.samples.getD [] = []
    · have h1 := (hgood m hm).1.weights
      rw [hx] at h1
      simp [Node.mean, h1, badWeight, XF.fin_div, XF.infMul, XF.isNan]
    · rw [(mean_good hp (hgood m hm).1).2.2 hx]
      have : average p (m.samples.getD []) = 0 := by
        unfold average
        rw [if_neg hx, List.sum_eq_zero, zero_div]
        intro y hy
        obtain ⟨x, hx, rfl⟩ := List.mem_map.1 hy
        exact hz x (hs ▸ List.mem_flatMap.2 ⟨m, hm, hx⟩)
      simp [this, badWeight, XF.leb]
  have e := setWeights_zero (L.map Node.mean) hbad
  rw [List.length_map, hm2] at e
  have e := Except.ok.inj e
  have hmix : mixture S' = ⟨(L.map fun n => (n.center, n.radius)).map
      fun b => (⟨b.1, b.2, ∏ i, b.2 i * 2⟩ : Uniform ℝ d).logProb1, (List.replicate L.length (0 : ℝ)).map XF.fin⟩ := by
    unfold mixture
    rw [hm1, e]
    simp
  unfold prob
  rw [hmix, Mixture.prob_eq _ _ (by
    intro f hf x
    rw [List.map_map] at hf
    obtain ⟨m, hm, rfl⟩ := List.mem_map.1 hf
    exact (leaf_density (hgood m hm).1.pos).1 x)]
  refine List.map_congr_left fun x _ => ?_
  rw [mixDensity_zero]

/-! ### Witnesses -/

/-- The witness density: 1 right of `-4/5`, 0 elsewhere. -/
noncomputable def stepDensity (x : Pt ℝ 1) : ℝ := if -4/5 < x 0 then 1 else 0

theorem tgt_eq : tgt = fun x => XF.fin (stepDensity x) := by
  funext x
  unfold tgt stepDensity
  split <;> rfl

theorem importance_of {c : Cfg ℝ} {target : Pt ℝ d → XF ℝ} {n : ℕ} {its : ℕ → Iter ℝ d} {S S1 : Sampler ℝ d}
    (h : iterations c target S.samples.length ((List.range (n - S.samples.length)).map its) S = .ok S1) :
    ∃ S', importanceSample c target n its S = .ok S' ∧ S'.T = S1.T ∧
      S'.samples = S1.T.leafNodes.flatMap fun n => n.samples.getD [] := by
  unfold importanceSample
  rw [h]
  simp only [updateModel, setWeights, List.length_map, if_true, Except.map, Except.ok.injEq, exists_eq_left']
  exact ⟨rfl, rfl⟩

theorem step_zero (σ : ℝ) : iterate (cfg σ) tgt 0 ⟨fun _ => 0, ![1/16], 0⟩ (Tree.init ![-1] ![1] : Tree ℝ 1) =
    .ok (⟨[nd 0 1 XF.nan none none (some [![-7/8]]) [XF.fin 0] 1 XF.nan], [0]⟩, 1) := by
  rw [init_eq]
  have hp : ∀ q l rr s w N e, (nd 0 1 q l rr s w N e).sampler.prob1 ![-7/8] = XF.fin (1/2) := fun q l rr s w N e => by
    rw [nd_prob] <;> norm_num
  have hx : ∀ q l rr s w N e, (nd 0 1 q l rr s w N e).sampler.sample1 ![1/16] = ![-7/8] := fun q l rr s w N e => by
    rw [nd_sample]; norm_num
  unfold iterate Tree.select
  simp only [List.mem_singleton, if_true, List.getElem?_cons_zero, hx, hp, tgt_b, nd_add]
  norm_num [XF.ltb, XF.fin_div, cfg, realBoost, nd, XF.infMul]

/-- **C90**, negation: a first call with one sample that misses the support of the target. The sampler then reports density 0
everywhere. -/
theorem C90_refuted (σ : ℝ) : ∃ (its : ℕ → Iter ℝ 1) (S' : Sampler ℝ 1),
    Reach ![-1] ![1] (cfg σ) (fun x => .fin (stepDensity x)) (reset ![-1] ![1]) ∧
    importanceSample (cfg σ) (fun x => .fin (stepDensity x)) 1 its (reset ![-1] ![1]) = .ok S' ∧
    (∀ data, prob S' data = data.map fun _ => .fin 0) ∧
    ¬ ∃ f : Pt ℝ 1 → ℝ, (∀ x, prob S' [x] = [.fin (f x)]) ∧ ∫ x, f x = 1 := by
  have hbox : ∀ i, (![-1] : Pt ℝ 1) i < (![1] : Pt ℝ 1) i := by
    intro i
    rw [Fin.fin_one_eq_zero i]
    norm_num
  have h : ∃ S', importanceSample (cfg σ) (fun x => .fin (stepDensity x)) 1 (fun _ => ⟨fun _ => 0, ![1/16], 0⟩)
      (reset ![-1] ![1]) = .ok S' ∧ S'.samples = [![-7/8]] := by
    rw [← tgt_eq]
    obtain ⟨S', e1, -, e3⟩ := importance_of (c := cfg σ) (target := tgt) (n := 1)
      (its := fun _ => ⟨fun _ => 0, ![1/16], 0⟩) (S := reset ![-1] ![1]) (S1 := { reset ![-1] ![1] with
        T := ⟨[nd 0 1 XF.nan none none (some [![-7/8]]) [XF.fin 0] 1 XF.nan], [0]⟩, numQ := 1, numPi := 1, numQEval := 1 })
      (by simp [reset, iterations, step_zero, -one_div])
    exact ⟨S', e1, e3⟩
  obtain ⟨S', h1, h2⟩ := h
  have h3 := C90_no_mass hbox (fun x => by unfold stepDensity; split <;> norm_num) .new h1
    (by rw [h2]; intro x hx; rw [List.mem_singleton.1 hx]; norm_num [stepDensity])
  refine ⟨_, S', .new, h1, h3, ?_⟩
  rintro ⟨f, hf, hi⟩
  have : f = fun _ => 0 := by
    funext x
    have := hf x
    rw [h3 [x]] at this
    simpa using this.symm
  rw [this] at hi
  simp at hi

/-- Non-vacuity of `C90_partial`: a call for four samples. -/
example : ∃ (its : ℕ → Iter ℝ 1) (S' : Sampler ℝ 1),
    importanceSample (cfg 1) (fun x => .fin (stepDensity x)) 4 its (reset ![-1] ![1]) = .ok S' ∧
    S'.T.leafNodes.length = 3 ∧ S'.samples.length = 4 ∧ ∃ x ∈ S'.samples, 0 < stepDensity x := by
  rw [← tgt_eq]
  refine ⟨fun k => if k = 0 then ⟨fun _ => 0, ![1/8], 0⟩ else if k = 1 then ⟨fun _ => 0, ![1/16], 0⟩ else
    if k = 2 then ⟨fun _ => 0, ![1/4], 0⟩ else ⟨fun _ => 0, ![1/2], 0⟩, ?_⟩
  have h : ∃ S', importanceSample (cfg 1) tgt 4 (fun k => if k = 0 then ⟨fun _ => 0, ![1/8], 0⟩ else
      if k = 1 then ⟨fun _ => 0, ![1/16], 0⟩ else if k = 2 then ⟨fun _ => 0, ![1/4], 0⟩ else ⟨fun _ => 0, ![1/2], 0⟩)
      (reset ![-1] ![1]) = .ok S' ∧ S'.T = T4 ∧ S'.samples = [![-3/4], ![-7/8], ![-3/4], ![-3/4]] := by
    have h1 := step1 1
    have h2 := step2 1
    have h3 := step3 1 one_pos.le
    have h4 := step4 1 one_pos.le
    have hr : List.range 4 = [0, 1, 2, 3] := rfl
    exact importance_of (S1 := { reset ![-1] ![1] with T := T4, numQ := 4, numPi := 9, numQEval := 9 })
      (by simp [reset, hr, iterations, h1, h2, h3, h4, -one_div])
  obtain ⟨S', h1, h2, h3⟩ := h
  refine ⟨S', h1, by rw [h2]; rfl, by rw [h3]; rfl, ![-3/4], by rw [h3]; simp, by norm_num [stepDensity]⟩

end HiD
end Verif
