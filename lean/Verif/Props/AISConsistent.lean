import Verif.Proof.AISRun
import Verif.Props.SampleLaw

/-!
# Property C115: layered AIS is consistent
-/

set_option linter.unusedSectionVars false
set_option autoImplicit false

namespace Verif

open MeasureTheory AISRound Filter Topology

variable {d N k : ℕ}

namespace LAIS

/-! ### The Metropolis moves as a measurable map -/

theorem mhStep_ite (lo hi : Fin d → ℝ) (t : (Fin d → ℝ) → ℝ) (ht0 : ∀ x, 0 ≤ t x) (move : Fin d → ℝ) (a : ℝ)
    (x : Fin d → ℝ) :
    mhStep lo hi (fun x => XF.fin (t x)) move a x =
      if (t x ≠ 0 ∧ a < t (clip lo hi (x + move)) / t x) ∨ (t x = 0 ∧ t (clip lo hi (x + move)) ≠ 0) then
        clip lo hi (x + move) else x := by
  unfold mhStep
  simp only
  rcases eq_or_ne (t x) 0 with h | h
  · have : XF.fin (t (clip lo hi (x + move))) / XF.fin (t x) = XF.infMul (t (clip lo hi (x + move))) := by
      show XF.div _ _ = _
      simp [XF.div, h]
    rw [this]
    rcases eq_or_lt_of_le (ht0 (clip lo hi (x + move))) with h2 | h2
    · rw [← h2]
      simp [XF.infMul, XF.ltb, h, ← h2]
    · simp [XF.infMul, h2, XF.ltb, h, h2.ne']
  · rw [XF.fin_div_ne _ _ h]
    simp [XF.ltb, h]

theorem clip_meas (lo hi : Fin d → ℝ) : Measurable (clip lo hi) := by
  unfold clip
  fun_prop

theorem mhStep_meas (lo hi : Fin d → ℝ) {t : (Fin d → ℝ) → ℝ} (ht : Measurable t) (ht0 : ∀ x, 0 ≤ t x)
    {B : Type*} [MeasurableSpace B] {mv : B → Fin d → ℝ} {al : B → ℝ} {x : B → Fin d → ℝ} (hmv : Measurable mv)
    (hal : Measurable al) (hx : Measurable x) :
    Measurable fun b => mhStep lo hi (fun x => XF.fin (t x)) (mv b) (al b) (x b) := by
  simp_rw [mhStep_ite lo hi t ht0]
  have hc : Measurable fun b => clip lo hi (x b + mv b) := by
    have := clip_meas lo hi
    fun_prop
  have h1 : Measurable fun b => t (x b) := ht.comp hx
  have h2 : Measurable fun b => t (clip lo hi (x b + mv b)) := ht.comp hc
  refine Measurable.ite ?_ hc hx
  have e1 : MeasurableSet {b | t (x b) = 0} := measurableSet_eq_fun h1 measurable_const
  have e2 : MeasurableSet {b | t (clip lo hi (x b + mv b)) = 0} := measurableSet_eq_fun h2 measurable_const
  have e3 : MeasurableSet {b | al b < t (clip lo hi (x b + mv b)) / t (x b)} := measurableSet_lt hal (h2.div h1)
  exact (e1.compl.inter e3).union (e1.inter e2.compl)

theorem mcmcMh_meas (lo hi : Fin d → ℝ) {t : (Fin d → ℝ) → ℝ} (ht : Measurable t) (ht0 : ∀ x, 0 ≤ t x) (L : ℕ)
    {B : Type*} [MeasurableSpace B] {mv : B → ℕ → Fin d → ℝ} {al : B → ℕ → ℝ} {x : B → Fin d → ℝ}
    (hmv : ∀ l, Measurable fun b => mv b l) (hal : ∀ l, Measurable fun b => al b l) (hx : Measurable x) :
    Measurable fun b => mcmcMh lo hi (fun x => XF.fin (t x)) L (mv b) (al b) (x b) := by
  unfold mcmcMh
  generalize List.range L = ls
  induction ls generalizing x with
  | nil => exact hx
  | cons l ls ih =>
    simp only [List.foldl_cons]
    exact ih (mhStep_meas lo hi ht ht0 (hmv l) (hal l) hx)

/-- What a round does with the centres. -/
noncomputable def move (L : ℕ) (lo hi : Fin d → ℝ) (t : (Fin d → ℝ) → ℝ) (c : Fin N → Fin d → ℝ) (ξ : Noise N k d) :
    Fin N → Fin d → ℝ :=
  fun i => mcmcMh lo hi (fun x => XF.fin (t x)) L (ξ.2.1 i) (ξ.2.2 i) (c i)

theorem move_measurable (L : ℕ) (lo hi : Fin d → ℝ) {t : (Fin d → ℝ) → ℝ} (ht : Measurable t) (ht0 : ∀ x, 0 ≤ t x) :
    Measurable (Function.uncurry (move (N := N) (k := k) L lo hi t)) := by
  refine measurable_pi_lambda _ fun i => ?_
  refine mcmcMh_meas lo hi ht ht0 L (B := (Fin N → Fin d → ℝ) × Noise N k d) (mv := fun b => b.2.2.1 i)
    (al := fun b => b.2.2.2 i) (x := fun b => b.1 i) ?_ ?_ ?_
  · intro l; fun_prop
  · intro l; fun_prop
  · fun_prop

theorem move_mem (L : ℕ) {lo hi : Fin d → ℝ} (hbox : ∀ i, lo i ≤ hi i) (t : (Fin d → ℝ) → ℝ) {c : Fin N → Fin d → ℝ}
    (hc : ∀ i, c i ∈ Set.Icc lo hi) (ξ : Noise N k d) (i : Fin N) : move L lo hi t c ξ i ∈ Set.Icc lo hi := by
  unfold move mcmcMh
  generalize List.range L = ls
  have h := hc i
  generalize c i = x at h
  induction ls generalizing x with
  | nil => exact h
  | cons l ls ih =>
    simp only [List.foldl_cons]
    refine ih _ ?_
    unfold mhStep
    simp only
    split
    · exact ⟨fun j => le_min (le_max_right _ _) (hbox j), fun j => min_le_right _ _⟩
    · exact h

/-! ### The run -/

/-- State before round `r`. -/
noncomputable def at_ (L : ℕ) (lo hi : Fin d → ℝ) (F : Family d) (t : (Fin d → ℝ) → ℝ) (S₀ : AIS ℝ d)
    (ω : ℕ → Noise N k d) : ℕ → AIS ℝ d :=
  Adaptive.st (fun S ξ => (body N k L lo hi (fun c x => .fin (F.dens c x)) (fun x => .fin (t x)) (record F S ξ) S).1) S₀ ω

theorem at_sums (hNk : 2 ≤ N * k) (L : ℕ) (lo hi : Fin d → ℝ) (F : Family d) (t : (Fin d → ℝ) → ℝ) {S₀ : AIS ℝ d}
    {c₀ : Fin N → Fin d → ℝ} (h₀ : Sums N S₀ c₀ fun _ => 0) (hs : S₀.samples = []) (ω : ℕ → Noise N k d) (r : ℕ) :
    Sums N (at_ L lo hi F t S₀ ω r) (Adaptive.st (move L lo hi t) c₀ ω r)
      (fun g => Adaptive.total (move L lo hi t) c₀ (fun c ξ => value F t g c ξ.1) ω r) ∧
    (at_ L lo hi F t S₀ ω r).samples.length = r * (N * k) ∧
    (body N k L lo hi (fun c x => .fin (F.dens c x)) (fun x => .fin (t x)) (record F (at_ L lo hi F t S₀ ω r) (ω r))
      (at_ L lo hi F t S₀ ω r)).2 = none := by
  have hN : 0 < N := by
    rcases Nat.eq_zero_or_pos N with h | h
    · subst h; omega
    · exact h
  have hb : ∀ (it : Iter ℝ d) (S : AIS ℝ d), body N k L lo hi (fun c x => .fin (F.dens c x)) (fun x => .fin (t x)) it S =
      ({ resample lo hi (fun x => .fin (t x)) L it
          { S with numQ := S.numQ + N * k, numPi := S.numPi + (AIS.batch N k it.pts).length } with
        samples := S.samples ++ AIS.batch N k it.pts
        weights := S.weights ++ (AIS.batch N k it.pts).map (S.weigh (fun c x => .fin (F.dens c x)) fun x => .fin (t x)) },
        none) := by
    intro it S
    unfold body
    simp only
    rw [if_neg (by rw [AIS.batch_length]; omega)]
    rfl
  refine ⟨?_, ?_, by rw [hb]⟩
  · induction r with
    | zero => simpa [Adaptive.total, at_, Adaptive.st] using h₀
    | succ r ih =>
      have e : at_ L lo hi F t S₀ ω (r + 1) = (body N k L lo hi (fun c x => .fin (F.dens c x)) (fun x => .fin (t x))
        (record F (at_ L lo hi F t S₀ ω r) (ω r)) (at_ L lo hi F t S₀ ω r)).1 := rfl
      rw [hb] at e
      have := Sums.next F hN (t := t) ih (ω r).1 (S' := at_ L lo hi F t S₀ ω (r + 1))
        (c' := Adaptive.st (move L lo hi t) c₀ ω (r + 1)) ?_ ?_ ?_ ?_
      · simpa [Adaptive.total, Finset.sum_range_succ] using this
      · rw [e]
        simp only [resample, ih.centers]
        refine List.ext_getElem (by simp) fun i h1 h2 => ?_
        simp only [List.getElem_mapIdx, List.getElem_ofFn]
        rfl
      · rw [e]; rfl
      · rw [e]; rfl
      · rw [e]; rfl
  · induction r with
    | zero => simp [at_, Adaptive.st, hs]
    | succ r ih =>
      have e : at_ L lo hi F t S₀ ω (r + 1) = (body N k L lo hi (fun c x => .fin (F.dens c x)) (fun x => .fin (t x))
        (record F (at_ L lo hi F t S₀ ω r) (ω r)) (at_ L lo hi F t S₀ ω r)).1 := rfl
      rw [e, hb]
      simp only [List.length_append, ih, AIS.batch_length]
      ring

theorem ceil_unique {w n r : ℕ} (hw : 0 < w) (hr : ∀ r' < r, r' * w < n) (h : n ≤ r * w) : r = (n + (w - 1)) / w := by
  symm
  rcases Nat.eq_zero_or_pos r with h0 | h0
  · subst h0
    have : n = 0 := by omega
    subst this
    exact Nat.div_eq_of_lt (by omega)
  · have := hr (r - 1) (by omega)
    obtain ⟨q, rfl⟩ : ∃ q, r = q + 1 := ⟨r - 1, by omega⟩
    simp only [Nat.add_sub_cancel] at this
    rw [Nat.div_eq_iff hw]
    have e : (q + 1) * w = q * w + w := by ring
    constructor <;> omega

/-- A call walks along the run and stops at the first state with enough samples. -/
theorem call_at (hNk : 2 ≤ N * k) (L : ℕ) (lo hi : Fin d → ℝ) (F : Family d) (t : (Fin d → ℝ) → ℝ) {S₀ : AIS ℝ d}
    {c₀ : Fin N → Fin d → ℝ} (h₀ : Sums N S₀ c₀ fun _ => 0) (hs : S₀.samples = []) (ω : ℕ → Noise N k d) (n m r : ℕ)
    (hr : ∀ r' < r, r' * (N * k) < n) (hm : n ≤ (r + m) * (N * k)) :
    importanceSample N k L lo hi (fun c x => .fin (F.dens c x)) (fun x => .fin (t x)) n false
      (script L lo hi F t ω m r (at_ L lo hi F t S₀ ω r)) (at_ L lo hi F t S₀ ω r) =
      .done (at_ L lo hi F t S₀ ω ((n + (N * k - 1)) / (N * k))) := by
  have hlen := fun r => (at_sums hNk L lo hi F t h₀ hs ω r).2.1
  have key := fun r hr => ceil_unique (w := N * k) (n := n) (r := r) (by omega) hr
  induction m generalizing r with
  | zero =>
    rw [← key r hr (by simpa using hm)]
    refine whileScript_skip ?_
    simp only [hlen, decide_eq_false_iff_not, not_lt]
    simpa using hm
  | succ m ih =>
    rcases le_or_gt n (r * (N * k)) with h | h
    · rw [← key r hr h]
      refine whileScript_skip ?_
      simp only [hlen, decide_eq_false_iff_not, not_lt]
      exact h
    · have hb := (at_sums hNk L lo hi F t h₀ hs ω r).2.2
      have e : at_ L lo hi F t S₀ ω (r + 1) = (body N k L lo hi (fun c x => .fin (F.dens c x)) (fun x => .fin (t x))
        (record F (at_ L lo hi F t S₀ ω r) (ω r)) (at_ L lo hi F t S₀ ω r)).1 := rfl
      have ih := ih (r + 1) (fun r' h' => by
        rcases Nat.lt_succ_iff_lt_or_eq.1 h' with h' | h'
        · exact hr r' h'
        · subst h'; exact h) (by rw [show r + 1 + m = r + (m + 1) by ring]; exact hm)
      rw [← ih, e]
      simp only [importanceSample, script, whileScript]
      rw [hlen]
      simp only [h, decide_true, Bool.not_false, Bool.and_self, if_true]
      split
      · next s' hs' => rw [hs']; rfl
      · next s' e' hs' => rw [hs'] at hb; cases hb

end LAIS

/-- The proposals right after a reset are inside the search space. -/
theorem reset_sums {lo hi : Fin d → ℝ} (hbox : ∀ i, lo i ≤ hi i) {u : ℕ → Fin d → ℝ} (hu : ∀ j i, 0 ≤ u j i ∧ u j i ≤ 1)
    (hN : 0 < N) {S₀ : AIS ℝ d} (h : AIS.reset N lo hi u = .ok S₀) :
    ∃ c₀ : Fin N → Fin d → ℝ, Sums N S₀ c₀ (fun _ => 0) ∧ S₀.samples = [] ∧ ∀ i, c₀ i ∈ Set.Icc lo hi := by
  rw [AIS.reset_ok N hN] at h
  cases h
  refine ⟨fun k i => lo i + (hi i - lo i) * u k i, ⟨?_, rfl, [], rfl, rfl, by simp⟩, rfl, ?_⟩
  · refine List.ext_getElem (by simp) fun i h1 h2 => ?_
    simp
  · intro j
    constructor <;> intro i
    · have := hu j i
      have := hbox i
      simp only
      nlinarith
    · have := hu j i
      have := hbox i
      simp only
      nlinarith

/-- **C115** Layered AIS is consistent. Start it fresh over any search space, with any normal proposals, and ask for `n`
samples of a nonnegative integrable target whose importance weights have bounded variance. The points of every round are
drawn from the proposals as they are by then, with independent standard normal numbers; the numbers used by the Metropolis
moves may have any law. Then with probability one, as `n` grows, the call returns and the weighted mean of `f` over the
returned sample tends to the expectation of `f` under the normalised target. -/
theorem C115_lais_consistent {L : ℕ} (hNk : 2 ≤ N * k) {lo hi : Fin d → ℝ} (hbox : ∀ i, lo i ≤ hi i) (F : Family d)
    {u : ℕ → Fin d → ℝ} (hu : ∀ j i, 0 ≤ u j i ∧ u j i ≤ 1) {S₀ : AIS ℝ d} (h₀ : AIS.reset N lo hi u = .ok S₀)
    {t f : (Fin d → ℝ) → ℝ} (ht : Measurable t) (ht0 : ∀ x, 0 ≤ t x) (hpos : 0 < ∫ x, t x) (hf : Measurable f)
    (hv1 : FiniteVariance F (Set.Icc lo hi) t fun _ => 1) (hvf : FiniteVariance F (Set.Icc lo hi) t f)
    (Q : Measure ((ℕ → ℕ → Fin d → ℝ) × (ℕ → ℕ → ℝ))) [IsProbabilityMeasure Q] :
    ∀ᵐ ω ∂(Measure.infinitePi fun _ : ℕ => LAIS.noiseLaw N k Q),
      ∃ e : ℕ → ℝ, Tendsto e atTop (𝓝 ((∫ x, f x * t x) / ∫ x, t x)) ∧
        ∀ᶠ n in atTop, ∀ m ≥ n, ∃ S, LAIS.importanceSample N k L lo hi (fun c x => .fin (F.dens c x)) (fun x => .fin (t x))
          n false (LAIS.script L lo hi F t ω m 0 S₀) S₀ = .done S ∧ meanOver f S.returned = .fin (e n) := by
  have hN : 0 < N := Nat.pos_of_ne_zero fun h => by subst h; omega
  have hk : 0 < k := Nat.pos_of_ne_zero fun h => by subst h; omega
  obtain ⟨c₀, hc₀, hs₀, hin⟩ := reset_sums hbox hu hN h₀
  have hr := ratio_tendsto (N := N) (k := k) F Q c₀ hN hk (LAIS.move_measurable L lo hi ht ht0) measurableSet_Icc ht hf ht0
    hv1 hvf hpos (R := Set.Icc lo hi) ⟨lo, Set.left_mem_Icc.2 hbox⟩
  filter_upwards [hr] with ω hω
  obtain ⟨h1, h2⟩ := hω (by
    intro n
    induction n with
    | zero => exact hin
    | succ n ih => exact fun i => LAIS.move_mem L hbox t ih _ i)
  have hceil : Tendsto (fun n : ℕ => (n + (N * k - 1)) / (N * k)) atTop atTop :=
    (Nat.tendsto_div_const_atTop (by omega)).comp (tendsto_add_atTop_nat _)
  refine ⟨_, h2.comp hceil, ?_⟩
  filter_upwards [hceil.eventually h1] with n hn m hm
  refine ⟨_, LAIS.call_at hNk L lo hi F t hc₀ hs₀ ω n m 0 (by simp) (by nlinarith), ?_⟩
  exact (LAIS.at_sums hNk L lo hi F t hc₀ hs₀ ω _).1.mean hn f

/-- The variance condition holds for every bounded target that vanishes outside a bounded set, whatever the proposals, if
`f` is bounded there. -/
theorem C115_bounded_targets (F : Family d) {lo hi a b : Fin d → ℝ} {t f : (Fin d → ℝ) → ℝ} {B C : ℝ} (ht : Measurable t)
    (hf : Measurable f) (htB : ∀ x, |t x| ≤ B) (htz : ∀ x, x ∉ Set.Icc a b → t x = 0)
    (hfC : ∀ x ∈ Set.Icc a b, |f x| ≤ C) : FiniteVariance F (Set.Icc lo hi) t f := by
  rcases Set.eq_empty_or_nonempty (Set.Icc lo hi ×ˢ Set.Icc a b) with he | hne
  · rcases Set.prod_eq_empty_iff.1 he with h | h
    · refine ⟨0, fun c hc => ?_⟩
      rw [h] at hc
      exact absurd hc (Set.notMem_empty _)
    · have hz : ∀ x, t x = 0 := fun x => htz x (by rw [h]; exact Set.notMem_empty _)
      refine ⟨0, fun c _ => ?_⟩
      simp [hz]
  · obtain ⟨p, hp, hmin⟩ := (isCompact_Icc.prod isCompact_Icc).exists_isMinOn hne F.dens_continuous.continuousOn
    have hD : 0 < F.dens p.1 p.2 := F.dens_pos _ _
    have hB : 0 ≤ B := (abs_nonneg _).trans (htB p.2)
    have hC : 0 ≤ C := (abs_nonneg _).trans (hfC p.2 hp.2)
    have hle : ∀ c ∈ Set.Icc lo hi, ∀ x, (f x * t x) ^ 2 / F.dens c x ≤
        (Set.Icc a b).indicator (fun _ => (C * B) ^ 2 / F.dens p.1 p.2) x := by
      intro c hc x
      by_cases hx : x ∈ Set.Icc a b
      · rw [Set.indicator_of_mem hx]
        refine div_le_div₀ (sq_nonneg _) ?_ hD (hmin (Set.mk_mem_prod hc hx))
        rw [← sq_abs, abs_mul]
        exact pow_le_pow_left₀ (by positivity) (mul_le_mul (hfC x hx) (htB x) (abs_nonneg _) hC) 2
      · rw [Set.indicator_of_notMem hx, htz x hx]
        simp
    have hint : Integrable ((Set.Icc a b).indicator fun _ : Fin d → ℝ => (C * B) ^ 2 / F.dens p.1 p.2) := by
      rw [integrable_indicator_iff measurableSet_Icc]
      exact integrableOn_const isCompact_Icc.measure_lt_top.ne
    refine ⟨∫ x, (Set.Icc a b).indicator (fun _ => (C * B) ^ 2 / F.dens p.1 p.2) x, fun c hc => ?_⟩
    have hi : Integrable fun x => (f x * t x) ^ 2 / F.dens c x := by
      refine Integrable.mono' hint (((hf.mul ht).pow_const 2).div (F.dens_measurable c)).aestronglyMeasurable
        (Eventually.of_forall fun x => ?_)
      rw [Real.norm_of_nonneg (div_nonneg (sq_nonneg _) (F.dens_pos c x).le)]
      exact hle c hc x
    exact ⟨hi, integral_mono hi hint (hle c hc)⟩

/-- Isotropic proposals, as the benchmark configures them. -/
noncomputable def AISRound.Family.diag (v : Fin d → ℝ) (hv : ∀ i, 0 < v i) : Family d where
  cov := Matrix.diagonal v
  prop m := diagNormal (m, v)
  u := 1
  s := v
  v := 1
  pos := Matrix.PosDef.diagonal hv
  built _ := diag_mk hv
  svd := isSVD_diagonal v fun i => (hv i).le

/-- Non-vacuity: two proposals of two points each over the unit square, the target being the indicator of the square; the
mean of the first coordinate converges. -/
example (Q : Measure ((ℕ → ℕ → Fin 2 → ℝ) × (ℕ → ℕ → ℝ))) [IsProbabilityMeasure Q] (S₀ : AIS ℝ 2)
    (h₀ : AIS.reset 2 (0 : Fin 2 → ℝ) 1 (fun _ _ => 1 / 2) = .ok S₀) :
    ∀ᵐ ω ∂(Measure.infinitePi fun _ : ℕ => LAIS.noiseLaw 2 2 Q),
      ∃ e : ℕ → ℝ, Tendsto e atTop (𝓝 ((∫ x : Fin 2 → ℝ, x 0 * (Set.Icc (0 : Fin 2 → ℝ) 1).indicator (fun _ => 1) x) /
          ∫ x, (Set.Icc (0 : Fin 2 → ℝ) 1).indicator (fun _ => (1 : ℝ)) x)) ∧
        ∀ᶠ n in atTop, ∀ m ≥ n, ∃ S, LAIS.importanceSample 2 2 3 0 1
          (fun c x => .fin ((Family.diag (fun _ => 1) fun _ => one_pos).dens c x))
          (fun x => .fin ((Set.Icc (0 : Fin 2 → ℝ) 1).indicator (fun _ => 1) x)) n false
          (LAIS.script 3 0 1 (Family.diag (fun _ => 1) fun _ => one_pos)
            ((Set.Icc (0 : Fin 2 → ℝ) 1).indicator fun _ => 1) ω m 0 S₀) S₀ = .done S ∧
          meanOver (fun x => x 0) S.returned = .fin (e n) := by
  have hm : Measurable ((Set.Icc (0 : Fin 2 → ℝ) 1).indicator fun _ => (1 : ℝ)) :=
    measurable_const.indicator measurableSet_Icc
  have h1 : ∀ x, |(Set.Icc (0 : Fin 2 → ℝ) 1).indicator (fun _ => (1 : ℝ)) x| ≤ 1 := fun x => by
    by_cases hx : x ∈ Set.Icc (0 : Fin 2 → ℝ) 1
    · simp [Set.indicator_of_mem hx]
    · simp [Set.indicator_of_notMem hx]
  have hz : ∀ x, x ∉ Set.Icc (0 : Fin 2 → ℝ) 1 → (Set.Icc (0 : Fin 2 → ℝ) 1).indicator (fun _ => (1 : ℝ)) x = 0 :=
    fun x hx => Set.indicator_of_notMem hx _
  refine C115_lais_consistent (by norm_num) (fun _ => zero_le_one) _ (fun _ _ => by norm_num) h₀ hm
    (fun x => Set.indicator_nonneg (fun _ _ => zero_le_one) x) ?_ (measurable_pi_apply 0)
    (C115_bounded_targets _ (a := 0) (b := 1) hm measurable_const h1 hz (C := 1) fun _ _ => by norm_num)
    (C115_bounded_targets _ (a := 0) (b := 1) hm (measurable_pi_apply 0) h1 hz (C := 1) fun x hx => ?_) Q
  · rw [integral_indicator measurableSet_Icc]
    simp [Measure.real, Real.volume_Icc_pi]
  · rw [abs_of_nonneg (hx.1 0)]
    exact hx.2 0

end Verif
