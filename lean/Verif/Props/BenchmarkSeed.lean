import Verif.Props.Benchmark
import Verif.Props.Reset

/-!
# Results of a benchmark do not depend on the other methods (C64)
-/

set_option linter.unusedSectionVars false
set_option autoImplicit false

namespace Verif
namespace Bench

variable {T σ W μ V : Type*} {o : Ops T σ W μ V} {m : Method T σ W V} {t : Target T}

/-! ### Specification -/

/-- `np.random.seed` determines all that the methods and metrics depend on (in particular neither clock nor memory use
are consulted). -/
def Reproducible (o : Ops T σ W μ V) : Prop := ∀ k w w', o.seed k w = o.seed k w'

/-- After `reset` nothing is left of the past of the object (see C60). -/
def Oblivious (m : Method T σ W V) : Prop := ∀ s s' w, m.reset s w = m.reset s' w

/-- What an evaluation shows: whether it returned, raised or is still running, and the lines it wrote. -/
def written : Out (Rep σ W μ V) → Out (List (Row V))
  | .done r => .done r.lines
  | .raised e r => .raised e r.lines
  | .running r => .running r.lines

/-! ### C64 -/

theorem forN_first {α : Type*} {f : ℕ → α → Out α} {a b : α} (h : f 0 a = f 0 b) (n : ℕ) :
    forN f (n + 1) a = forN f (n + 1) b := by
  induction n with
  | zero => simpa [forN] using h
  | succ n ih => rw [forN, ih, ← forN]

/-- **C64**, for one evaluation: with a seed that is not negative, what it shows does not depend on the object and the
world it starts from. -/
theorem C64_evaluation {c : Config} (ho : Reproducible o) (hm : Oblivious m) (hc : 0 ≤ c.rseed) (fuel : ℕ) (s s' : σ)
    (w w' : W) : written (evaluate o c m t fuel s w) = written (evaluate o c m t fuel s' w') := by
  unfold evaluate
  rw [if_pos hc, if_pos hc, ho _ w w']
  dsimp only
  cases c.nReps with
  | zero => rfl
  | succ n =>
    rw [forN_first (f := fun _ r => repetition o m t c.maxTime fuel r)]
    unfold repetition
    dsimp only
    rw [hm s s']

/-- The lines of an evaluation. -/
theorem written_state {a b : Out (Rep σ W μ V)} (h : written a = written b) : a.state.lines = b.state.lines := by
  cases a <;> cases b <;> simp [written, Out.state] at h ⊢ <;> first | exact h | exact h.2

theorem loadMethods_fst {t : T} : ∀ {ms : List (Method T σ W V)} {w : W} {l : List (Method T σ W V × σ)} {w' : W},
    loadMethods t ms w = (.ok l, w') → l.map Prod.fst = ms
  | [], w, l, w', h => by cases h; rfl
  | m :: ms, w, l, w', h => by
    unfold loadMethods at h
    split at h
    · cases h
    · split at h
      · cases h
      · rename_i hl
        cases h
        rw [List.map_cons, loadMethods_fst hl]

theorem runMethods_lines {c : Config} (ho : Reproducible o) (hc : 0 ≤ c.rseed) {fuel : ℕ} (s0 : σ) (w0 : W) :
    ∀ (l : List (Method T σ W V × σ)) (p : W × List (Row V)), (∀ e ∈ l, Oblivious e.1) →
    (runMethods o c fuel t l p).Sat
      (fun q => q.2 = p.2 ++ (l.map Prod.fst).flatMap fun m => (evaluate o c m t fuel s0 w0).state.lines)
      (fun q => ∃ z, p.2 ++ z = q.2 ∧ z <+: (l.map Prod.fst).flatMap fun m => (evaluate o c m t fuel s0 w0).state.lines)
      (fun q => ∃ z, p.2 ++ z = q.2 ∧ z <+: (l.map Prod.fst).flatMap fun m => (evaluate o c m t fuel s0 w0).state.lines)
  | [], p, _ => by simp [runMethods, Out.Sat]
  | (m, s) :: l, p, h => by
    unfold runMethods
    generalize m.reset s p.1 = rs
    obtain ⟨x, s1, w1⟩ := rs
    cases x with
    | some e => exact ⟨[], by simp, by simp⟩
    | none =>
      dsimp only
      have hw := written_state (C64_evaluation (t := t) ho (h (m, s) (by simp)) hc fuel s1 s0 w1 w0)
      generalize evaluate o c m t fuel s1 w1 = ev at hw
      cases ev with
      | done r =>
        dsimp only
        change r.lines = (evaluate o c m t fuel s0 w0).state.lines at hw
        refine (runMethods_lines ho hc s0 w0 l (r.w, p.2 ++ r.lines) fun e he => h e (List.mem_cons_of_mem _ he)).mono
          ?_ ?_ ?_
        · intro q hq
          rw [hq]; simp only [List.map_cons, List.flatMap_cons, ← hw, List.append_assoc]
        · rintro q ⟨z, h1, h2⟩
          refine ⟨r.lines ++ z, by rw [← h1, List.append_assoc], ?_⟩
          simp only [List.map_cons, List.flatMap_cons, ← hw]
          exact List.prefix_append_right_inj _ |>.2 h2
        · rintro q ⟨z, h1, h2⟩
          refine ⟨r.lines ++ z, by rw [← h1, List.append_assoc], ?_⟩
          simp only [List.map_cons, List.flatMap_cons, ← hw]
          exact List.prefix_append_right_inj _ |>.2 h2
      | raised e r =>
        change r.lines = (evaluate o c m t fuel s0 w0).state.lines at hw
        refine ⟨r.lines, rfl, ?_⟩
        simp only [List.map_cons, List.flatMap_cons, ← hw]
        exact List.prefix_append _ _
      | running r =>
        change r.lines = (evaluate o c m t fuel s0 w0).state.lines at hw
        refine ⟨r.lines, rfl, ?_⟩
        simp only [List.map_cons, List.flatMap_cons, ← hw]
        exact List.prefix_append _ _

theorem runTargets_lines {c : Config} (ho : Reproducible o) (hc : 0 ≤ c.rseed) {fuel : ℕ} {methods : List (Method T σ W V)}
    (hm : ∀ m ∈ methods, Oblivious m) (s0 : σ) (w0 : W) :
    ∀ (ts : List (Target T)) (p : W × List (Row V)),
    (runTargets o c fuel methods ts p).Sat
      (fun q => q.2 = p.2 ++ ts.flatMap fun t => methods.flatMap fun m => (evaluate o c m t fuel s0 w0).state.lines)
      (fun q => ∃ z, p.2 ++ z = q.2 ∧
        z <+: ts.flatMap fun t => methods.flatMap fun m => (evaluate o c m t fuel s0 w0).state.lines)
      (fun q => ∃ z, p.2 ++ z = q.2 ∧
        z <+: ts.flatMap fun t => methods.flatMap fun m => (evaluate o c m t fuel s0 w0).state.lines)
  | [], p => by simp [runTargets, Out.Sat]
  | t :: ts, p => by
    unfold runTargets
    cases hl : loadMethods t.obj methods p.1 with
    | mk x w =>
      cases x with
      | error e => exact ⟨[], by simp, by simp⟩
      | ok l =>
        have hfst := loadMethods_fst hl
        dsimp only
        have hr := runMethods_lines (t := t) (fuel := fuel) ho hc s0 w0 l (w, p.2) fun e he =>
          hm e.1 (by rw [← hfst]; exact List.mem_map_of_mem he)
        rw [hfst] at hr
        generalize runMethods o c fuel t l (w, p.2) = R at hr
        cases R with
        | done q =>
          dsimp only [Out.Sat] at hr
          refine (runTargets_lines ho hc hm s0 w0 ts q).mono ?_ ?_ ?_
          · intro q' hq
            rw [hq, hr, List.flatMap_cons, List.append_assoc]
          · rintro q' ⟨z, h1, h2⟩
            refine ⟨(methods.flatMap fun m => (evaluate o c m t fuel s0 w0).state.lines) ++ z, by rw [← h1, hr, List.append_assoc], ?_⟩
            rw [List.flatMap_cons]
            exact List.prefix_append_right_inj _ |>.2 h2
          · rintro q' ⟨z, h1, h2⟩
            refine ⟨(methods.flatMap fun m => (evaluate o c m t fuel s0 w0).state.lines) ++ z, by rw [← h1, hr, List.append_assoc], ?_⟩
            rw [List.flatMap_cons]
            exact List.prefix_append_right_inj _ |>.2 h2
        | raised e q =>
          obtain ⟨z, h1, h2⟩ := hr
          exact ⟨z, h1, h2.trans (by rw [List.flatMap_cons]; exact List.prefix_append _ _)⟩
        | running q =>
          obtain ⟨z, h1, h2⟩ := hr
          exact ⟨z, h1, h2.trans (by rw [List.flatMap_cons]; exact List.prefix_append _ _)⟩

/-- **C64**, for a whole benchmark: the rows of the file are, target by target and method by method, those of the
evaluation of that method alone, started from any object `s0` and any world `w0`. If the benchmark stops early, by an
exception or in a loop that does not end, the file is a beginning of that. -/
theorem C64_run {c : Config} (ho : Reproducible o) (hc : 0 ≤ c.rseed) {fuel : ℕ} {methods : List (Method T σ W V)}
    (hm : ∀ m ∈ methods, Oblivious m) (ts : List (Target T)) (w : W) (s0 : σ) (w0 : W) :
    (run o c fuel methods ts w).Sat
      (fun q => q.2 = ts.flatMap fun t => methods.flatMap fun m => (evaluate o c m t fuel s0 w0).state.lines)
      (fun q => q.2 <+: ts.flatMap fun t => methods.flatMap fun m => (evaluate o c m t fuel s0 w0).state.lines)
      (fun q => q.2 <+: ts.flatMap fun t => methods.flatMap fun m => (evaluate o c m t fuel s0 w0).state.lines) := by
  unfold run
  dsimp only
  split
  · exact List.nil_prefix
  · refine (runTargets_lines ho hc hm s0 w0 ts _).mono ?_ ?_ ?_
    · intro q h; simpa using h
    · rintro q ⟨z, h1, h2⟩; simp only [List.nil_append] at h1; rw [← h1]; exact h2
    · rintro q ⟨z, h1, h2⟩; simp only [List.nil_append] at h1; rw [← h1]; exact h2

/-! ### Metropolis-Hastings -/

/-- A Metropolis-Hastings sampler (flat target, no burn in, one step per sample) in a world that is the sequence of random
numbers to come: the constructor and every sample take one. -/
noncomputable def mhMethod (name : String) : Method Unit (MHast.MH 1) (ℕ → ℝ) ℝ where
  new _ w := (.ok (MHast.init fun _ => w 0), fun i => w (i + 1))
  reset s w := (none, MHast.resetFrom s, w)
  sample _ n _ s w :=
    match MHast.importanceSample mhFlat n false (mhMove fun _ => w 0) (fun _ => 0) s with
    | .done S => (.ok S.samples.length, S, fun i => w (i + 1))
    | .raised e S => (.error e, S, fun i => w (i + 1))
    | .running S => (.error .timeout, S, fun i => w (i + 1))
  report _ := .ok ⟨1, name, 1, 0, 0, 0⟩

/-- A generator that yields 0, 1, 2, ... for any seed, and the metric `(mean of the samples)²`. -/
noncomputable def mhOps : Ops Unit (MHast.MH 1) (ℕ → ℝ) Unit ℝ where
  seed _ _ := fun i => i
  new _ w := ((), w)
  reset _ _ w := ((), w)
  pre _ _ w := ((), w)
  post _ _ w := ((), w)
  compute _ _ _ s w := (.ok (((s.samples.map fun x => x 0).sum / s.samples.length) ^ 2), (), s, w)

/-- One repetition of one sample. -/
noncomputable def mhCfg : Config := ⟨["EVMSE"], 0, 1, 5⟩

theorem mh_evaluate (name : String) (x w : ℕ → ℝ) (hx : |x 0| ≤ 5) : ∃ r,
    evaluate mhOps mhCfg (mhMethod name) ⟨(), 1, "target", 1, 1⟩ 1 (MHast.init fun _ => x 0) w = .done r ∧
    r.lines = [⟨1, 1, [("EVMSE", (x 0) ^ 2)], ⟨1, name, 1, 0, 0, 0⟩, "target"⟩] := by
  obtain ⟨S, h1, h2, -⟩ := mhFlat_run (fun _ => x 0) (fun _ => ((0 : ℕ) : ℝ))
  have h3 : clip mhFlat.lo mhFlat.hi ((fun _ => x 0) + fun _ => ((0 : ℕ) : ℝ)) 0 = x 0 := by
    rw [abs_le] at hx
    simp [clip, mhFlat, hx.1, hx.2]
  have hs : (mhMethod name).sample () 1 5 (MHast.init fun _ => x 0) (fun i => (i : ℝ)) =
      (.ok 1, S, fun i => ((i + 1 : ℕ) : ℝ)) := by
    show (match MHast.importanceSample mhFlat 1 false (mhMove fun _ => ((0 : ℕ) : ℝ)) (fun _ => 0)
        (MHast.init fun _ => x 0) with
      | .done S => (Except.ok S.samples.length, S, fun i : ℕ => ((i + 1 : ℕ) : ℝ))
      | .raised e S => (.error e, S, fun i => ((i + 1 : ℕ) : ℝ))
      | .running S => (.error .timeout, S, fun i => ((i + 1 : ℕ) : ℝ))) = _
    rw [h1]
    dsimp only
    rw [h2]
    rfl
  have hv : (((S.samples.map fun x => x 0).sum / (S.samples.length : ℝ)) ^ 2) = (x 0) ^ 2 := by
    rw [h2]
    simp only [List.map_cons, List.map_nil, List.sum_cons, List.sum_nil, List.length_cons, List.length_nil]
    rw [h3]
    norm_num
  have hiter : iter mhOps (mhMethod name) ⟨(), 1, "target", 1, 1⟩ 5
      ⟨MHast.init fun _ => x 0, fun i => (i : ℝ), [(.evmse, ())], 0, 1, 0, false, []⟩ =
      .next ⟨S, fun i => ((i + 1 : ℕ) : ℝ), [(.evmse, ())], 1, 2, 0, true,
        [⟨1, 1, [("EVMSE", (x 0) ^ 2)], ⟨1, name, 1, 0, 0, 0⟩, "target"⟩]⟩ := by
    unfold iter
    simp only [each, sub_zero, mhOps]
    rw [hs]
    simp only [computeAll, hv, mhMethod, if_neg (show ¬ (5 : ℝ) < 0 by norm_num)]
    simp [dictSet, Kind.name]
  refine ⟨⟨S, fun i => ((i + 1 : ℕ) : ℝ), [(.evmse, ())], 1, 2, 0, true,
        [⟨1, 1, [("EVMSE", (x 0) ^ 2)], ⟨1, name, 1, 0, 0, 0⟩, "target"⟩]⟩, ?_, rfl⟩
  have hrep : repetition mhOps (mhMethod name) ⟨(), 1, "target", 1, 1⟩ 5 1
      ⟨MHast.init fun _ => x 0, fun i => (i : ℝ), [(.evmse, ())], 0, 1, 0, false, []⟩ =
      .done ⟨S, fun i => ((i + 1 : ℕ) : ℝ), [(.evmse, ())], 1, 2, 0, true,
        [⟨1, 1, [("EVMSE", (x 0) ^ 2)], ⟨1, name, 1, 0, 0, 0⟩, "target"⟩]⟩ := by
    unfold repetition
    rw [show (mhMethod name).reset (MHast.init fun _ => x 0) (fun i => (i : ℝ)) =
      (none, MHast.init fun _ => x 0, fun i : ℕ => (i : ℝ)) from rfl]
    simp only [each, show ∀ k x w, mhOps.reset k x w = ((), w) from fun _ _ _ => rfl]
    unfold loop
    rw [if_pos (by norm_num), show _ = _ from hiter]
    simp [loop, finish]
  show forN (fun _ r => repetition mhOps (mhMethod name) ⟨(), 1, "target", 1, 1⟩ 5 1 r) 1 _ = _
  simp only [forN]
  exact hrep

theorem run_seeded {c : Config} (hc : 0 ≤ c.rseed) {fuel : ℕ} {methods : List (Method T σ W V)} {t : Target T}
    {ts : List (Target T)} {w : W} :
    run o c fuel methods (t :: ts) w = runTargets o c fuel methods (t :: ts) (o.seed c.rseed.toNat w, []) := by
  unfold run
  rw [if_pos hc]
  exact if_neg (by simp)

/-- The rows of a file with the given method name. -/
def rowsOf {V : Type*} (name : String) (rows : List (Row V)) : List (List (String × V)) :=
  (rows.filter fun r => r.report.name == name).map Row.values

/-- The code violates **C64** for Metropolis-Hastings: its constructor draws the first point of the chain from the
generator, after the methods loaded before it, and neither the seed nor `reset` renew it. With the same seed and target,
the results of `mh` are different when another method is listed before it. -/
theorem C64_refuted : ∃ (o : Ops Unit (MHast.MH 1) (ℕ → ℝ) Unit ℝ) (c : Config) (t : Target Unit)
    (mh other : Method Unit (MHast.MH 1) (ℕ → ℝ) ℝ) (w : ℕ → ℝ) (p q : (ℕ → ℝ) × List (Row ℝ)), Reproducible o ∧
    0 ≤ c.rseed ∧ run o c 1 [mh] [t] w = .done p ∧ run o c 1 [other, mh] [t] w = .done q ∧
    rowsOf "mh" p.2 ≠ rowsOf "mh" q.2 := by
  obtain ⟨r1, h1, l1⟩ := mh_evaluate "mh" (fun i => (i : ℝ)) (fun i => ((i + 1 : ℕ) : ℝ)) (by simp)
  obtain ⟨r2, h2, l2⟩ := mh_evaluate "other" (fun i => (i : ℝ)) (fun i => ((i + 1 + 1 : ℕ) : ℝ)) (by simp)
  obtain ⟨r3, h3, l3⟩ := mh_evaluate "mh" (fun i => ((i + 1 : ℕ) : ℝ)) r2.w (by norm_num)
  refine ⟨mhOps, mhCfg, ⟨(), 1, "target", 1, 1⟩, mhMethod "mh", mhMethod "other", fun _ => 0, (r1.w, r1.lines),
    (r3.w, r2.lines ++ r3.lines), fun _ _ _ => rfl, by simp [mhCfg], ?_, ?_, ?_⟩
  · rw [run_seeded (by simp [mhCfg])]
    unfold runTargets
    rw [show mhOps.seed mhCfg.rseed.toNat (fun _ => 0) = (fun i : ℕ => (i : ℝ)) from rfl]
    dsimp only
    rw [show loadMethods (σ := MHast.MH 1) () [mhMethod "mh"] (fun i : ℕ => (i : ℝ)) =
      (.ok [(mhMethod "mh", MHast.init fun _ => ((0 : ℕ) : ℝ))], fun i => ((i + 1 : ℕ) : ℝ)) from rfl]
    dsimp only
    have : runMethods mhOps mhCfg 1 ⟨(), 1, "target", 1, 1⟩
        [(mhMethod "mh", MHast.init fun _ => ((0 : ℕ) : ℝ))] (fun i => ((i + 1 : ℕ) : ℝ), []) = .done (r1.w, r1.lines) := by
      unfold runMethods
      rw [show (mhMethod "mh").reset (MHast.init fun _ => ((0 : ℕ) : ℝ)) (fun i => ((i + 1 : ℕ) : ℝ)) =
        (none, MHast.init fun _ => ((0 : ℕ) : ℝ), fun i => ((i + 1 : ℕ) : ℝ)) from rfl]
      dsimp only
      rw [h1]
      rfl
    rw [this]
    rfl
  · rw [run_seeded (by simp [mhCfg])]
    unfold runTargets
    rw [show mhOps.seed mhCfg.rseed.toNat (fun _ => 0) = (fun i : ℕ => (i : ℝ)) from rfl]
    dsimp only
    rw [show loadMethods (σ := MHast.MH 1) () [mhMethod "other", mhMethod "mh"] (fun i : ℕ => (i : ℝ)) =
      (.ok [(mhMethod "other", MHast.init fun _ => ((0 : ℕ) : ℝ)), (mhMethod "mh", MHast.init fun _ => ((0 + 1 : ℕ) : ℝ))],
        fun i => ((i + 1 + 1 : ℕ) : ℝ)) from rfl]
    dsimp only
    have : runMethods mhOps mhCfg 1 ⟨(), 1, "target", 1, 1⟩
        [(mhMethod "other", MHast.init fun _ => ((0 : ℕ) : ℝ)), (mhMethod "mh", MHast.init fun _ => ((0 + 1 : ℕ) : ℝ))]
        (fun i => ((i + 1 + 1 : ℕ) : ℝ), []) = .done (r3.w, r2.lines ++ r3.lines) := by
      unfold runMethods
      rw [show (mhMethod "other").reset (MHast.init fun _ => ((0 : ℕ) : ℝ)) (fun i => ((i + 1 + 1 : ℕ) : ℝ)) =
        (none, MHast.init fun _ => ((0 : ℕ) : ℝ), fun i => ((i + 1 + 1 : ℕ) : ℝ)) from rfl]
      dsimp only
      rw [h2]
      dsimp only
      unfold runMethods
      rw [show (mhMethod "mh").reset (MHast.init fun _ => ((0 + 1 : ℕ) : ℝ)) r2.w =
        (none, MHast.init fun _ => ((0 + 1 : ℕ) : ℝ), r2.w) from rfl]
      dsimp only
      rw [h3]
      rfl
    rw [this]
    rfl
  · simp [rowsOf, l1, l2, l3]

/-! ### Examples -/

/-- The method of `obliging_run` is oblivious; with a world of one state its results are those of C64. -/
example (w : ℕ) : written (evaluate (V := ℚ) { idleN with seed := fun _ _ => 0 } ⟨["T"], 0, 2, 5⟩ obliging
    ⟨(), 1, "target", 25, 10⟩ 3 7 w) = written (evaluate { idleN with seed := fun _ _ => 0 } ⟨["T"], 0, 2, 5⟩ obliging
    ⟨(), 1, "target", 25, 10⟩ 3 0 0) :=
  C64_evaluation (fun _ _ _ => rfl) (fun _ _ _ => rfl) (by simp) 3 7 0 w 0

end Bench
end Verif
