import Verif.Model.Reset
import Verif.Proof.AIS

/-!
# `reset` forgets the past (C60)

For every sampler but Metropolis-Hastings and multi-nested sampling, the object after `reset` is, attribute by attribute,
the new object for the same random numbers, whatever the object was before. In a multi-nested sampler one attribute
survives but no result of any later sequence of calls depends on it. A Metropolis-Hastings sampler keeps its current
sample, and its later samples depend on it.
-/

set_option linter.unusedSectionVars false
set_option autoImplicit false

namespace Verif

section field
variable {K : Type*} [Field K] [LinearOrder K] [IsStrictOrderedRing K] {d : ℕ}

theorem AIS.refill_eq (lo hi : Fin d → K) (u : ℕ → Fin d → K) (N : ℕ) (S : AIS K d) :
    AIS.refill lo hi u N S = { S with centers := (List.range N).map fun k i => lo i + (hi i - lo i) * u k i } := by
  induction N with
  | zero => rfl
  | succ n ih => rw [AIS.refill, ih, List.range_succ, List.map_append]; rfl

/-- DM-AIS and layered AIS: `reset` of any object is the new object. -/
theorem C60_ais (N : ℕ) (lo hi : Fin d → K) (u : ℕ → Fin d → K) (S : AIS K d) :
    AIS.resetFrom N lo hi u S = AIS.reset N lo hi u := by
  unfold AIS.resetFrom AIS.reset
  simp only [AIS.refill_eq, List.length_map, List.length_range, AIS.baseReset]
  split
  · rfl
  · cases setWeights N (List.replicate N (XF.fin (1 / (N : K)))) <;> rfl

/-- Tree pyramid samplers. -/
theorem C60_tp (dmin dmax : Pt K d) (S : TPSampler K d) : TPSampler.resetFrom dmin dmax S = TPSampler.new dmin dmax := by
  unfold TPSampler.resetFrom TPSampler.new
  cases TPTree.init dmin dmax <;> rfl

/-- HiDaisee. -/
theorem C60_hidaisee (lo hi : Pt K d) (S : HiD.Sampler K d) : HiD.resetFrom lo hi S = HiD.reset lo hi := rfl

end field

section real
variable {d : ℕ}

/-- M-PMC. -/
theorem C60_mpmc {N : ℕ} (sigma : ℝ) (lo hi : Fin d → ℝ) (u : Fin N → Fin d → ℝ) (S : PMC d N) :
    PMC.resetFrom sigma lo hi u S = PMC.reset N sigma lo hi u := by
  unfold PMC.resetFrom PMC.reset
  split
  · rfl
  · split
    · simp only [List.ofFn_const]
      cases setWeights N (List.replicate N (XF.fin (1 / (N : ℝ)))) <;> rfl
    · rfl

/-- Rejection sampling. -/
theorem C60_rejection (S : Rejection.Rej d) : Rejection.resetFrom S = Rejection.init := rfl

/-- Nested sampling. -/
theorem C60_nested (c : Nested.Cfg d) (us : Fin c.N → Fin d → ℝ) (S : Nested.Nest d) :
    Nested.resetFrom c us S = Nested.reset c us := rfl

/-- What the calls of one session do: the request and the random outcomes of each. -/
structure MultiNested.Call (d : ℕ) where
  n : ℕ
  km : ℕ → ℕ → ℕ
  fuel : ℕ
  env : ℕ → MultiNested.Env d
  idx : ℕ → ℕ

/-- The observable outcomes of a sequence of calls (it goes on after an exception, as a caller may). -/
noncomputable def MultiNested.session (c : MultiNested.Cfg d) :
    List (MultiNested.Call d) → MultiNested.Obj d → List (Out (Nested.Nest d))
  | [], _ => []
  | k :: ks, S =>
    let r := S.importanceSample c k.n k.km k.fuel k.env k.idx
    r.1 :: MultiNested.session c ks ⟨r.1.state, r.2⟩

theorem MultiNested.importanceSample_fst (c : MultiNested.Cfg d) (k : MultiNested.Call d) (S : MultiNested.Obj d) :
    (S.importanceSample c k.n k.km k.fuel k.env k.idx).1 =
      MultiNested.importanceSample c k.n k.km k.fuel k.env k.idx S.nest := by
  unfold MultiNested.Obj.importanceSample
  dsimp only
  split <;> rfl

theorem MultiNested.session_congr (c : MultiNested.Cfg d) (ks : List (MultiNested.Call d)) :
    ∀ S S' : MultiNested.Obj d, S.nest = S'.nest → MultiNested.session c ks S = MultiNested.session c ks S' := by
  induction ks with
  | nil => intros; rfl
  | cons k ks ih =>
    intro S S' h
    simp only [MultiNested.session]
    have : (S.importanceSample c k.n k.km k.fuel k.env k.idx).1 =
        (S'.importanceSample c k.n k.km k.fuel k.env k.idx).1 := by
      rw [MultiNested.importanceSample_fst, MultiNested.importanceSample_fst, h]
    rw [this]
    congr 1
    exact ih _ _ rfl

/-- Multi-nested sampling: every later sequence of calls has the outcomes it has on the new object. -/
theorem C60_multinested (c : MultiNested.Cfg d) (us : Fin c.N → Fin d → ℝ) (S : MultiNested.Obj d)
    (ks : List (MultiNested.Call d)) :
    MultiNested.session c ks (MultiNested.resetFrom c us S) = MultiNested.session c ks (MultiNested.Obj.new c us) :=
  MultiNested.session_congr c ks _ _ rfl

/-- Metropolis-Hastings, what does hold: after `reset` the object is the new one whose first point is the point the chain
was at. (Missing for C60: independence of that point.) -/
theorem C60_mh_partial (S : MHast.MH d) : MHast.resetFrom S = MHast.init S.cur := rfl

/-- A sampler without burn in, one step per sample, flat target and proposal. -/
def mhFlat : MHast.Cfg 1 := ⟨fun _ => -5, fun _ => 5, fun _ => .fin 0, fun _ => .fin 0, 1, 0, 1⟩

/-- One call for one sample in which the offset `z` is drawn and accepted. -/
noncomputable def mhMove (z : Fin 1 → ℝ) : List (MHast.Iter 1) :=
  [⟨fun _ => [], fun _ _ _ => ⟨false, [⟨z, 1/2, false⟩]⟩, false⟩]

theorem mhFlat_accepts (x y : Fin 1 → ℝ) : MHast.accepts mhFlat x y (1/2) = true := by
  have : Real.log (1/2) < 0 := Real.log_neg (by norm_num) (by norm_num)
  have h0 : (0:ℝ) < 1/2 := by norm_num
  have e : MHast.alpha mhFlat x y = .fin 0 := by
    show (XF.fin (0:ℝ) - XF.fin 0) + (XF.fin 0 - XF.fin 0) = XF.fin 0
    show XF.fin ((0:ℝ) + -0 + (0 + -0)) = XF.fin 0
    norm_num
  unfold MHast.accepts
  rw [e, XF.log, if_neg (by norm_num), if_neg (by norm_num)]
  exact decide_eq_true this

theorem mhFlat_run (x z : Fin 1 → ℝ) :
    ∃ S, MHast.importanceSample mhFlat 1 false (mhMove z) (fun _ => 0) (MHast.init x) = .done S ∧
      S.samples = [clip mhFlat.lo mhFlat.hi (x + z)] ∧ S.cur = clip mhFlat.lo mhFlat.hi (x + z) := by
  unfold MHast.importanceSample mhMove
  simp [whileOut, MHast.body, MHast.sample, MHast.burnIn, MHast.init, forN, MHast.sampleIter, MHast.mcmc,
    MHast.mcmcIter, MHast.advance, MHast.mcmcStep, whileScript, MHast.tryBody, mhFlat_accepts, MHast.relabel,
    MHast.updateModel, MHast.propose, show mhFlat.nBurnin = 0 from rfl, show mhFlat.nSteps = 1 from rfl,
    show mhFlat.nKde = 1 from rfl, -one_div]

/-- Metropolis-Hastings violates C60: two objects built from the same first draw, one of them used for one sample; after
`reset` both, asked for one sample with the same random numbers, return different samples. -/
theorem C60_refuted : ∃ (c : MHast.Cfg 1) (x0 : Fin 1 → ℝ) (past now : List (MHast.Iter 1)) (U R₁ R₂ : MHast.MH 1),
    MHast.importanceSample c 1 false past (fun _ => 0) (MHast.init x0) = .done U ∧
    MHast.importanceSample c 1 false now (fun _ => 0) (MHast.resetFrom U) = .done R₁ ∧
    MHast.importanceSample c 1 false now (fun _ => 0) (MHast.resetFrom (MHast.init x0)) = .done R₂ ∧
    R₁.samples ≠ R₂.samples := by
  obtain ⟨U, hU, -, hc⟩ := mhFlat_run 0 1
  obtain ⟨R₁, h1, s1, -⟩ := mhFlat_run U.cur 0
  obtain ⟨R₂, h2, s2, -⟩ := mhFlat_run 0 0
  refine ⟨mhFlat, 0, _, _, U, R₁, R₂, hU, h1, h2, ?_⟩
  rw [s1, s2, hc]
  intro h
  have := congrFun (List.cons.inj h).1 0
  norm_num [clip, mhFlat] at this

/-! ### Examples -/

/-- A nested sampler with live points, samples and counts is as new after `reset`. -/
example : Nested.resetFrom (d := 1) ⟨fun _ => 0, fun _ => 2, fun _ => 1, 1, 1⟩ (fun _ _ => 1/2)
    ⟨[![5]], [![4]], none, [3], [.fin 1], some [![4]], 7, 8, 9⟩ =
    ⟨[fun _ => 1/2 * (2 - 0) + 0], [], none, [], [], none, 0, 0, 0⟩ := rfl

/-- A DM-AIS object after use. -/
example : AIS.resetFrom 1 (fun _ => 0) (fun _ => 4) (fun _ _ => 1/2)
    (⟨[![0], ![1]], [XF.fin 1, XF.fin 0], [![0], ![1]], [XF.fin 1, XF.fin 1], 2, 0, 2⟩ : AIS ℚ 1) =
    AIS.reset 1 (fun _ => 0) (fun _ => 4) (fun _ _ => 1/2) := C60_ais ..

end real
end Verif
