import Verif.Props.UnitsNormal

/-!
# C158: the order of the axes

Two samplers are given the same random numbers and clock readings. The first one samples from the density `p` in the box from `lo` to
`hi`. In the second one the axes are in another order: its axis `i` is the axis `e i` of the first, so that the point `x` becomes
`x ∘ e`, and the density of the target is `x ↦ p (x ∘ e.symm)`. (Rejection sampling is an instance of `C157_rejection`.)
-/

set_option linter.unusedSectionVars false
set_option autoImplicit false

namespace Verif

theorem comp_back {d : ℕ} {α : Type*} (e : Equiv.Perm (Fin d)) (x : Fin d → α) : (x ∘ e) ∘ e.symm = x := by
  funext i
  simp

/-! ### Metropolis-Hastings -/

namespace MHast
variable {d : ℕ} (e : Equiv.Perm (Fin d))

/-- The sampler with all stored points with the axes in the other order. -/
def permuted (S : MH d) : MH d :=
  { S with cur := S.cur ∘ e, trajS := S.trajS.map (· ∘ e), samples := S.samples.map (· ∘ e), kde := S.kde.map (List.map (· ∘ e)) }

/-- The problem with the axes in another order. -/
def Cfg.permuted (c : Cfg d) : Cfg d :=
  { c with lo := c.lo ∘ e, hi := c.hi ∘ e, target := fun x => c.target (x ∘ e.symm), prop := fun x => c.prop (x ∘ e.symm) }

/-- The moves of an iteration with the axes in the other order. -/
def Try.permuted (t : Try d) : Try d := { t with z := t.z ∘ e }

/-- The moves of an iteration with the axes in the other order. -/
def StepEnv.permuted (s : StepEnv d) : StepEnv d := { s with tries := s.tries.map (Try.permuted e) }

/-- The moves of an iteration with the axes in the other order. -/
def Iter.permuted (it : Iter d) : Iter d :=
  { it with burn := fun j => (it.burn j).map (Try.permuted e), env := fun i j k => (it.env i j k).permuted e }

variable {e}

theorem tryBody_permuted (c : Cfg d) (x : Fin d → ℝ) (t : Try d) (p : MH d × (Fin d → ℝ) × Bool) :
    tryBody (c.permuted e) (x ∘ e) (t.permuted e) (permuted e p.1, p.2.1 ∘ e, p.2.2) =
      ((permuted e (tryBody c x t p).1.1, ((tryBody c x t p).1.2.1) ∘ e, (tryBody c x t p).1.2.2), (tryBody c x t p).2) := by
  have hy : propose (c.permuted e) (x ∘ e) (t.permuted e).z = (propose c x t.z) ∘ e := by
    unfold propose Cfg.permuted Try.permuted
    dsimp only
    rfl
  have ha : ∀ y, accepts (c.permuted e) (x ∘ e) (y ∘ e) t.u = accepts c x y t.u := by
    intro y
    unfold accepts alpha Cfg.permuted
    dsimp only
    rw [← Pi.sub_comp, ← Pi.sub_comp]
    simp only [comp_back]
  have hu : (t.permuted e).u = t.u := rfl
  unfold tryBody
  dsimp only
  rw [hy, hu, ha]
  simp [permuted]

theorem relabel_permuted (l : Label) (S : MH d) : relabel l (permuted e S) = (relabel l S).map (permuted e) := by
  unfold relabel
  show (if S.trajT = [] then _ else _) = _
  split <;> rfl

theorem mcmcStep_permuted (c : Cfg d) (x : Fin d → ℝ) (env : StepEnv d) (S : MH d) :
    mcmcStep (c.permuted e) (x ∘ e) (env.permuted e) (permuted e S) = (mcmcStep c x env S).view fun p => (permuted e p.1, p.2 ∘ e) := by
  unfold mcmcStep
  have h := whileScript_view2 (Try.permuted e) (fun p : MH d × (Fin d → ℝ) × Bool => (permuted e p.1, p.2.1 ∘ e, p.2.2)) (cond := fun p => !p.2.2)
    (cond' := fun p => !p.2.2) (late := Try.late) (late' := Try.late) (body := tryBody c x) (body' := tryBody (c.permuted e) (x ∘ e)) (fun _ => rfl)
    (fun _ => rfl) (fun t p => tryBody_permuted c x t p) env.tries env.closed (S, x, false)
  dsimp only at h
  have h1 : (env.permuted e).tries = env.tries.map (Try.permuted e) := rfl
  have h2 : (env.permuted e).closed = env.closed := rfl
  rw [h1, h2, h]
  cases whileScript (fun p => !p.2.2) Try.late (tryBody c x) env.closed env.tries (S, x, false) with
  | running p => rfl
  | raised e p => rfl
  | done p =>
    dsimp only [Out.view]
    rw [relabel_permuted]
    cases relabel .accept p.1 <;> rfl

theorem advance_permuted (c : Cfg d) (lab : Label) (env : StepEnv d) (S : MH d) :
    advance (c.permuted e) lab (env.permuted e) (permuted e S) = (advance c lab env S).view (permuted e) := by
  unfold advance
  have hc : (permuted e S).cur = S.cur ∘ e := rfl
  rw [hc, mcmcStep_permuted]
  cases mcmcStep c S.cur env S with
  | running p => rfl
  | raised e p => rfl
  | done p =>
    have h : ({ permuted e p.1 with cur := p.2 ∘ e } : MH d) = permuted e { p.1 with cur := p.2 } := rfl
    dsimp only [Out.view]
    rw [h, relabel_permuted]
    cases relabel lab { p.1 with cur := p.2 } <;> rfl

/-- An object and points collected, with the axes in the other order. -/
def permuted2 (e : Equiv.Perm (Fin d)) (p : MH d × List (Fin d → ℝ)) : MH d × List (Fin d → ℝ) := (permuted e p.1, p.2.map (· ∘ e))

theorem mcmcIter_permuted (c : Cfg d) (env : ℕ → StepEnv d) (p : MH d × List (Fin d → ℝ)) :
    mcmcIter (c.permuted e) (fun j => (env j).permuted e) (permuted2 e p) = (mcmcIter c env p).view (permuted2 e) := by
  unfold mcmcIter
  have h := forN_view (permuted e) (g := fun j S => advance c .decorrelation (env j) S)
    (g' := fun j S => advance (c.permuted e) .decorrelation ((env j).permuted e) S)
    (fun j S => advance_permuted c _ (env j) S) c.nSteps p.1
  have e1 : (permuted2 e p).1 = permuted e p.1 := rfl
  have e2 : (c.permuted e).nSteps = c.nSteps := rfl
  rw [e1, e2, h]
  cases forN (fun j S => advance c .decorrelation (env j) S) c.nSteps p.1 with
  | running S => rfl
  | raised e S => rfl
  | done S =>
    dsimp only [Out.view]
    rw [relabel_permuted]
    cases relabel .sample S with
    | none => rfl
    | some S' => simp [permuted2, permuted, Out.view]

theorem mcmc_permuted (c : Cfg d) (n : ℕ) (env : ℕ → ℕ → StepEnv d) (S : MH d) :
    mcmc (c.permuted e) n (fun i j => (env i j).permuted e) (permuted e S) = (mcmc c n env S).view (permuted2 e) :=
  forN_view (permuted2 e) (g := fun i p => mcmcIter c (env i) p)
    (g' := fun i p => mcmcIter (c.permuted e) (fun j => (env i j).permuted e) p)
    (fun i p => mcmcIter_permuted c (env i) p) n (S, [])

theorem burnIn_permuted (c : Cfg d) (burn : ℕ → List (Try d)) (S : MH d) :
    burnIn (c.permuted e) (fun j => (burn j).map (Try.permuted e)) (permuted e S) = (burnIn c burn S).view (permuted e) := by
  unfold burnIn
  have h := forN_view (permuted e) (g := fun j S => advance c .burnIn ⟨false, burn j⟩ S)
    (g' := fun j S => advance (c.permuted e) .burnIn ⟨false, (burn j).map (Try.permuted e)⟩ S)
    (fun j S => advance_permuted c _ ⟨false, burn j⟩ S) c.nBurnin S
  have e1 : (permuted e S).isInit = S.isInit := rfl
  have e2 : (c.permuted e).nBurnin = c.nBurnin := rfl
  rw [e1, e2, h]
  split
  · rfl
  · cases forN (fun j S => advance c .burnIn ⟨false, burn j⟩ S) c.nBurnin S <;> rfl

theorem sample_permuted (c : Cfg d) (n : ℕ) (burn : ℕ → List (Try d)) (env : ℕ → ℕ → ℕ → StepEnv d) (S : MH d) :
    sample (c.permuted e) n (fun j => (burn j).map (Try.permuted e)) (fun i j k => (env i j k).permuted e) (permuted e S) =
      (sample c n burn env S).view (permuted2 e) := by
  unfold sample
  rw [burnIn_permuted]
  cases burnIn c burn S with
  | running S => rfl
  | raised e S => rfl
  | done S =>
    refine forN_view (permuted2 e) (g := fun i p => sampleIter c n (env i) p)
      (g' := fun i p => sampleIter (c.permuted e) n (fun j k => (env i j k).permuted e) p) ?_ n (S, [])
    intro i p
    unfold sampleIter
    have e1 : (permuted2 e p).1 = permuted e p.1 := rfl
    rw [e1, mcmc_permuted]
    cases mcmc c n (env i) p.1 with
    | running r => rfl
    | raised e r => rfl
    | done r => simp [permuted2, Out.view]

theorem body_permuted (c : Cfg d) (it : Iter d) (S : MH d) :
    body (c.permuted e) (it.permuted e) (permuted e S) = (body c it S).view (permuted e) := by
  unfold body
  have h := sample_permuted (e := e) c 1 it.burn it.env S
  have h1 : (it.permuted e).burn = fun j => (it.burn j).map (Try.permuted e) := rfl
  have h2 : (it.permuted e).env = fun i j k => (it.env i j k).permuted e := rfl
  rw [h1, h2, h]
  cases sample c 1 it.burn it.env S with
  | running r => rfl
  | raised e r => rfl
  | done r => simp [permuted2, permuted, Out.view]

theorem importanceSample_permuted (c : Cfg d) (n : ℕ) (ex : Bool) (script : List (Iter d)) (idx : ℕ → ℕ) (S : MH d) :
    importanceSample (c.permuted e) n ex (script.map (Iter.permuted e)) idx (permuted e S) =
      (importanceSample c n ex script idx S).view (permuted e) := by
  unfold importanceSample
  have h := whileOut_view2 (Iter.permuted e) (permuted e) (cond := fun S : MH d => decide (S.samples.length < n))
    (cond' := fun S : MH d => decide (S.samples.length < n)) (late := Iter.late) (late' := Iter.late)
    (fun S => by simp [permuted]) (fun _ => rfl) (fun it S => body_permuted c it S) script ex S
  rw [h]
  cases whileOut (fun S : MH d => decide (S.samples.length < n)) Iter.late (body c) ex script S with
  | running S => rfl
  | raised e S => rfl
  | done S =>
    dsimp only [Out.view]
    have e1 : (permuted e S).samples = S.samples.map (· ∘ e) := rfl
    have e2 : (c.permuted e).nKde = c.nKde := rfl
    rw [e1, e2, updateModel_map, List.length_map]
    cases updateModel c.nKde idx S.samples <;> rfl

end MHast

/-- **C158** for Metropolis-Hastings, from new samplers whose first points are the same place. The caller sees the
samples, the weights, the logged points with their labels, the centres of the reported density and the counters. -/
theorem C158_mh {d : ℕ} (e : Equiv.Perm (Fin d)) (c : MHast.Cfg d) (x0 : Fin d → ℝ)
    (calls : List (ℕ × Bool × List (MHast.Iter d) × (ℕ → ℕ))) :
    session (fun a => MHast.importanceSample
          { c with
            lo := c.lo ∘ e
            hi := c.hi ∘ e
            target := fun x => c.target (x ∘ e.symm)
            prop := fun x => c.prop (x ∘ e.symm) } a.1 a.2.1
          (a.2.2.1.map fun it : MHast.Iter d =>
            { it with
              burn := fun j => (it.burn j).map fun t : MHast.Try d => { t with z := t.z ∘ e }
              env := fun i j k => { it.env i j k with tries := (it.env i j k).tries.map fun t : MHast.Try d => { t with z := t.z ∘ e } } })
          a.2.2.2)
        (fun S => (S.samples, S.weights, S.trajS, S.trajT, S.kde, S.numPi, S.numQEval, S.numQ)) calls (MHast.init (x0 ∘ e)) =
      session (fun a => MHast.importanceSample c a.1 a.2.1 a.2.2.1 a.2.2.2)
        (fun S => (S.samples.map (· ∘ e), S.weights, S.trajS.map (· ∘ e), S.trajT, S.kde.map (List.map (· ∘ e)), S.numPi, S.numQEval, S.numQ))
        calls (MHast.init x0) := by
  have h := session_sim (fun a : ℕ × Bool × List (MHast.Iter d) × (ℕ → ℕ) => a) (MHast.permuted e)
    (fun S => (S.samples.map (· ∘ e), S.weights, S.trajS.map (· ∘ e), S.trajT, S.kde.map (List.map (· ∘ e)), S.numPi, S.numQEval, S.numQ))
    (fun S => (S.samples, S.weights, S.trajS, S.trajT, S.kde, S.numPi, S.numQEval, S.numQ)) (fun _ => rfl)
    (call := fun a => MHast.importanceSample c a.1 a.2.1 a.2.2.1 a.2.2.2)
    (call' := fun a => MHast.importanceSample (c.permuted e) a.1 a.2.1
      (a.2.2.1.map (MHast.Iter.permuted e)) a.2.2.2)
    (fun a S => MHast.importanceSample_permuted c a.1 a.2.1 a.2.2.1 a.2.2.2 S) calls (MHast.init x0)
  rw [List.map_id'] at h
  exact h

/-! ### DM-AIS and layered AIS -/

section ais
variable {K : Type*} [Field K] [LinearOrder K] [IsStrictOrderedRing K] {d : ℕ}

/-- The sampler with all stored points with the axes in the other order. -/
def AIS.permuted (e : Equiv.Perm (Fin d)) (S : AIS K d) : AIS K d :=
  { S with centers := S.centers.map (· ∘ e), samples := S.samples.map (· ∘ e) }

variable {e : Equiv.Perm (Fin d)}

theorem AIS.weigh_permuted {q q' : (Fin d → K) → (Fin d → K) → XF K} (hq : ∀ c x, q' (c ∘ e) (x ∘ e) = q c x)
    (p : (Fin d → K) → XF K) (S : AIS K d) (x : Fin d → K) :
    (S.permuted e).weigh q' (fun x => p (x ∘ e.symm)) (x ∘ e) = S.weigh q p x := by
  unfold AIS.weigh AIS.prob AIS.permuted
  dsimp only
  rw [comp_back, List.zipWith_map_left]
  simp only [hq]

theorem AIS.batch_permuted (e : Equiv.Perm (Fin d)) (N k : ℕ) (pts : ℕ → ℕ → Fin d → K) :
    AIS.batch N k (fun i j => (pts i j) ∘ e) = (AIS.batch N k pts).map (· ∘ e) := by
  unfold AIS.batch
  rw [List.map_flatMap]
  simp only [List.map_map]
  rfl

theorem DM.resample_permuted (e : Equiv.Perm (Fin d)) (bern : ℕ → ℕ → K → Bool) (xs : List (Fin d → K)) (ws : List (XF K)) (hl : ws.length = xs.length)
    (S : AIS K d) :
    DM.resample bern (xs.map (· ∘ e)) ws (S.permuted e) = ((DM.resample bern xs ws S).1.permuted e, (DM.resample bern xs ws S).2) := by
  unfold DM.resample
  cases hp : DM.pvals (ws.map fun w => w / ws.sum) with
  | error e => rfl
  | ok ps =>
    have hps : ps ≠ [] ∧ ps.length = xs.length := by
      unfold DM.pvals at hp
      cases hf : finites (ws.map fun w => w / ws.sum) with
      | none => rw [hf] at hp; cases hp
      | some ps' =>
        rw [hf] at hp
        dsimp only at hp
        split at hp
        · rename_i h
          cases hp
          refine ⟨h.1, ?_⟩
          have := finites_len _ hf
          rw [this, List.length_map, hl]
        · cases hp
    simp only [AIS.permuted, List.length_map, List.map_map]
    congr 2
    apply List.map_congr_left
    intro i _
    have hm : (multinomial1 (bern i) ps).length = ps.length := PMC.multinomialGo_length _ _ _ _
    have hlt : argmaxNat (multinomial1 (bern i) ps) < xs.length := by
      have := PMC.argmaxNat_lt (multinomial1 (bern i) ps) (by
        intro h
        rw [h] at hm
        exact hps.1 (List.length_eq_zero_iff.1 hm.symm))
      omega
    simp [List.getElem?_eq_getElem hlt]

theorem AIS.reset_permuted (e : Equiv.Perm (Fin d)) {N : ℕ} {lo hi : Fin d → K} {u : ℕ → Fin d → K} {S S' : AIS K d}
    (hS : AIS.reset N lo hi u = .ok S) (hS' : AIS.reset N (lo ∘ e) (hi ∘ e) (fun k => u k ∘ e) = .ok S') : S' = S.permuted e := by
  by_cases hN : N = 0
  · subst hN
    simp [AIS.reset] at hS
  · rw [AIS.reset_ok N (Nat.pos_of_ne_zero hN)] at hS hS'
    cases hS
    cases hS'
    unfold AIS.permuted
    dsimp only
    rw [List.map_map]
    rfl

/-- The outcomes of an iteration, drawn points with the axes in the other order. -/
def DM.Iter.permuted (e : Equiv.Perm (Fin d)) (it : DM.Iter K d) : DM.Iter K d := { it with pts := fun i j => (it.pts i j) ∘ e }

theorem DM.body_permuted (N k : ℕ) {q q' : (Fin d → K) → (Fin d → K) → XF K} (hq : ∀ c x, q' (c ∘ e) (x ∘ e) = q c x)
    (p : (Fin d → K) → XF K) (it : DM.Iter K d) (S : AIS K d) :
    DM.body N k q' (fun x => p (x ∘ e.symm)) (it.permuted e) (S.permuted e) =
      ((DM.body N k q p it S).1.permuted e, (DM.body N k q p it S).2) := by
  unfold DM.body DM.Iter.permuted
  dsimp only
  rw [AIS.batch_permuted, List.length_map]
  split
  · rfl
  · generalize AIS.batch N k it.pts = xs
    have hS : ({ S.permuted e with numQ := (S.permuted e).numQ + N * k } : AIS K d) = AIS.permuted e { S with numQ := S.numQ + N * k } := rfl
    rw [hS]
    generalize ({ S with numQ := S.numQ + N * k } : AIS K d) = S1
    have hw : (xs.map (· ∘ e)).map ((S1.permuted e).weigh q' fun x => p (x ∘ e.symm)) = xs.map (S1.weigh q p) := by
      rw [List.map_map]
      exact List.map_congr_left fun x _ => AIS.weigh_permuted hq p S1 x
    rw [hw]
    have hS2 : (⟨(S.permuted e).centers, (S.permuted e).modelWeights, (S.permuted e).samples, (S.permuted e).weights,
        (S.permuted e).numPi + xs.length, (S.permuted e).numQEval, (S.permuted e).numQ + N * k⟩ : AIS K d) =
      AIS.permuted e ⟨S.centers, S.modelWeights, S.samples, S.weights, S.numPi + xs.length, S.numQEval, S.numQ + N * k⟩ := rfl
    rw [hS2, DM.resample_permuted e _ _ _ (by simp)]
    generalize DM.resample it.bern xs (xs.map (S1.weigh q p)) _ = r
    obtain ⟨S2, e⟩ := r
    cases e with
    | some e => rfl
    | none => simp [AIS.permuted]

/-- **C158** for DM-AIS, from new samplers with the same random numbers. `q c x` is the density at `x` of the proposal at `c`, and
`q'` that of the proposals with the axes in the other order. -/
theorem C158_dm (e : Equiv.Perm (Fin d)) (N k : ℕ) (q q' : (Fin d → K) → (Fin d → K) → XF K)
    (hq : ∀ c x, q' (c ∘ e) (x ∘ e) = q c x) (p : (Fin d → K) → XF K) (lo hi : Fin d → K) (u : ℕ → Fin d → K)
    (S S' : AIS K d) (hS : AIS.reset N lo hi u = .ok S) (hS' : AIS.reset N (lo ∘ e) (hi ∘ e) (fun k => u k ∘ e) = .ok S')
    (calls : List (ℕ × Bool × List (DM.Iter K d))) :
    session (fun a => DM.importanceSample N k q' (fun x => p (x ∘ e.symm)) a.1 a.2.1
          (a.2.2.map fun it : DM.Iter K d => { it with pts := fun i j => (it.pts i j) ∘ e }))
        (fun S => (S.returned, S.centers, S.modelWeights, S.numPi, S.numQEval, S.numQ)) calls S' =
      session (fun a => DM.importanceSample N k q p a.1 a.2.1 a.2.2)
        (fun S => ((S.returned.1.map (· ∘ e), S.returned.2), S.centers.map (· ∘ e), S.modelWeights, S.numPi, S.numQEval, S.numQ)) calls S := by
  rw [AIS.reset_permuted e hS hS']
  have h := session_sim (fun a : ℕ × Bool × List (DM.Iter K d) => a) (AIS.permuted e)
    (fun S => ((S.returned.1.map (· ∘ e), S.returned.2), S.centers.map (· ∘ e), S.modelWeights, S.numPi, S.numQEval, S.numQ))
    (fun S => (S.returned, S.centers, S.modelWeights, S.numPi, S.numQEval, S.numQ)) (fun _ => rfl)
    (call := fun a => DM.importanceSample N k q p a.1 a.2.1 a.2.2)
    (call' := fun a => DM.importanceSample N k q' (fun x => p (x ∘ e.symm)) a.1 a.2.1
          (a.2.2.map (DM.Iter.permuted e)))
    (fun a S => whileScript_view2 (DM.Iter.permuted e) (AIS.permuted e) (cond := fun S => decide (S.samples.length < a.1))
      (cond' := fun S => decide (S.samples.length < a.1)) (late := DM.Iter.late) (late' := DM.Iter.late)
      (fun S => by simp [AIS.permuted]) (fun _ => rfl)
      (fun it S => DM.body_permuted N k hq p it S) a.2.2 a.2.1 S) calls S
  rw [List.map_id'] at h
  exact h

theorem LAIS.mcmcMh_permuted (lo hi : Fin d → K) (p : (Fin d → K) → XF K) (L : ℕ) (move : ℕ → Fin d → K) (alpha : ℕ → K) (x : Fin d → K) :
    LAIS.mcmcMh (lo ∘ e) (hi ∘ e) (fun x => p (x ∘ e.symm)) L (fun l => (move l) ∘ e) alpha (x ∘ e) =
      (LAIS.mcmcMh lo hi p L move alpha x) ∘ e := by
  unfold LAIS.mcmcMh
  have hs : ∀ l (x : Fin d → K), LAIS.mhStep (lo ∘ e) (hi ∘ e) (fun x => p (x ∘ e.symm)) ((move l) ∘ e) (alpha l) (x ∘ e) =
      (LAIS.mhStep lo hi p (move l) (alpha l) x) ∘ e := by
    intro l x
    unfold LAIS.mhStep
    dsimp only
    rw [← Pi.add_comp]
    show (if XF.ltb (XF.fin (alpha l)) (p ((clip lo hi (x + move l) ∘ e) ∘ e.symm) / p ((x ∘ e) ∘ e.symm)) = true then clip lo hi (x + move l) ∘ e else x ∘ e) = _
    simp only [comp_back]
    split <;> rfl
  generalize List.range L = ls
  induction ls generalizing x with
  | nil => rfl
  | cons l ls ih => rw [List.foldl_cons, List.foldl_cons, hs, ih]

/-- The outcomes of an iteration with the drawn points and the moves with the axes in the other order. -/
def LAIS.Iter.permuted (e : Equiv.Perm (Fin d)) (it : LAIS.Iter K d) : LAIS.Iter K d :=
  { it with pts := fun i j => (it.pts i j) ∘ e, move := fun i l => (it.move i l) ∘ e }

theorem LAIS.body_permuted (N k L : ℕ) (lo hi : Fin d → K) {q q' : (Fin d → K) → (Fin d → K) → XF K}
    (hq : ∀ c x, q' (c ∘ e) (x ∘ e) = q c x) (p : (Fin d → K) → XF K) (it : LAIS.Iter K d) (S : AIS K d) :
    LAIS.body N k L (lo ∘ e) (hi ∘ e) q' (fun x => p (x ∘ e.symm)) (it.permuted e) (S.permuted e) =
      ((LAIS.body N k L lo hi q p it S).1.permuted e, (LAIS.body N k L lo hi q p it S).2) := by
  unfold LAIS.body LAIS.Iter.permuted
  dsimp only
  rw [AIS.batch_permuted, List.length_map]
  split
  · rfl
  · generalize AIS.batch N k it.pts = xs
    have hS : ({ S.permuted e with numQ := (S.permuted e).numQ + N * k } : AIS K d) = AIS.permuted e { S with numQ := S.numQ + N * k } := rfl
    rw [hS]
    generalize ({ S with numQ := S.numQ + N * k } : AIS K d) = S1
    have hw : (xs.map (· ∘ e)).map ((S1.permuted e).weigh q' fun x => p (x ∘ e.symm)) = xs.map (S1.weigh q p) := by
      rw [List.map_map]
      exact List.map_congr_left fun x _ => AIS.weigh_permuted hq p S1 x
    rw [hw]
    unfold LAIS.resample
    simp only [AIS.permuted, List.length_map, List.map_append, Nested.mapIdx_of_map, LAIS.mcmcMh_permuted]
    congr 2
    apply List.ext_getElem
    · simp
    · intro i h1 h2
      simp

/-- **C158** for layered AIS, from new samplers with the same random numbers; the coordinates of the Metropolis moves are reordered too. -/
theorem C158_lais (e : Equiv.Perm (Fin d)) (N k L : ℕ) (q q' : (Fin d → K) → (Fin d → K) → XF K)
    (hq : ∀ c x, q' (c ∘ e) (x ∘ e) = q c x) (p : (Fin d → K) → XF K) (lo hi : Fin d → K) (u : ℕ → Fin d → K)
    (S S' : AIS K d) (hS : AIS.reset N lo hi u = .ok S) (hS' : AIS.reset N (lo ∘ e) (hi ∘ e) (fun k => u k ∘ e) = .ok S')
    (calls : List (ℕ × Bool × List (LAIS.Iter K d))) :
    session (fun a => LAIS.importanceSample N k L (lo ∘ e) (hi ∘ e) q' (fun x => p (x ∘ e.symm)) a.1 a.2.1
          (a.2.2.map fun it : LAIS.Iter K d => { it with pts := fun i j => (it.pts i j) ∘ e, move := fun i l => (it.move i l) ∘ e }))
        (fun S => (S.returned, S.centers, S.modelWeights, S.numPi, S.numQEval, S.numQ)) calls S' =
      session (fun a => LAIS.importanceSample N k L lo hi q p a.1 a.2.1 a.2.2)
        (fun S => ((S.returned.1.map (· ∘ e), S.returned.2), S.centers.map (· ∘ e), S.modelWeights, S.numPi, S.numQEval, S.numQ)) calls S := by
  rw [AIS.reset_permuted e hS hS']
  have h := session_sim (fun a : ℕ × Bool × List (LAIS.Iter K d) => a) (AIS.permuted e)
    (fun S => ((S.returned.1.map (· ∘ e), S.returned.2), S.centers.map (· ∘ e), S.modelWeights, S.numPi, S.numQEval, S.numQ))
    (fun S => (S.returned, S.centers, S.modelWeights, S.numPi, S.numQEval, S.numQ)) (fun _ => rfl)
    (call := fun a => LAIS.importanceSample N k L lo hi q p a.1 a.2.1 a.2.2)
    (call' := fun a => LAIS.importanceSample N k L (lo ∘ e) (hi ∘ e) q' (fun x => p (x ∘ e.symm)) a.1 a.2.1
          (a.2.2.map (LAIS.Iter.permuted e)))
    (fun a S => whileScript_view2 (LAIS.Iter.permuted e) (AIS.permuted e) (cond := fun S => decide (S.samples.length < a.1))
      (cond' := fun S => decide (S.samples.length < a.1)) (late := LAIS.Iter.late) (late' := LAIS.Iter.late)
      (fun S => by simp [AIS.permuted]) (fun _ => rfl)
      (fun it S => LAIS.body_permuted N k L lo hi hq p it S) a.2.2 a.2.1 S) calls S
  rw [List.map_id'] at h
  exact h

end ais
/-- **C158** for rejection sampling. -/
theorem C158_rejection {d : ℕ} (e : Equiv.Perm (Fin d)) (target prop : (Fin d → ℝ) → XF ℝ) (scaling : ℝ) (nKde : ℕ)
    (calls : List (ℕ × Bool × List (Rejection.Iter d) × (ℕ → ℕ))) :
    session (fun a => Rejection.importanceSample ⟨fun x => target (x ∘ e.symm), fun x => prop (x ∘ e.symm), scaling, nKde⟩ a.1 a.2.1
          (a.2.2.1.map fun it : Rejection.Iter d => ⟨fun j => it.pts j ∘ e, it.u, it.late⟩) a.2.2.2)
        (fun S => (S.samples, S.weights, S.kde, S.numPi, S.numQEval, S.numQ)) calls Rejection.init =
      session (fun a => Rejection.importanceSample ⟨target, prop, scaling, nKde⟩ a.1 a.2.1 a.2.2.1 a.2.2.2)
        (fun S => (S.samples.map (· ∘ e), S.weights, S.kde.map (List.map (· ∘ e)), S.numPi, S.numQEval, S.numQ)) calls Rejection.init := by
  have h1 : ∀ w : XF ℝ, XF.fin ((1 : ℝ))⁻¹ * w = w := by
    intro w
    cases w with
    | nan => rfl
    | fin x => simp
    | pinf => exact XF.fin_mul_pinf (by norm_num)
    | ninf => exact XF.fin_mul_ninf (by norm_num)
  exact C157_rejection (fun x => x ∘ e) (fun _ => 1) (fun _ => one_pos) target prop _ _ (fun x => by rw [comp_back, h1])
    (fun x => by rw [comp_back, h1]) scaling nKde calls

/-- **C158** the hypothesis on the proposals in `C158_dm` and `C158_lais` for the normal distributions of the code. -/
theorem C158_proposal {d : ℕ} (e : Equiv.Perm (Fin d)) {sigma : ℝ} (hs : 0 < sigma) (c x : Fin d → ℝ) :
    AIS.proposal sigma (c ∘ e) (x ∘ e) = AIS.proposal sigma c x := by
  rw [AIS.proposal_eq hs, AIS.proposal_eq hs]
  unfold gaussDiag
  exact Equiv.prod_comp e fun k => Real.exp (-(x k - c k) ^ 2 / (2 * sigma)) / Real.sqrt (2 * Real.pi * sigma)

/-- The hypotheses of `C158_dm` and `C158_lais`: two axes exchanged, samplers with three proposals. -/
example : (∃ S : AIS ℝ 2, AIS.reset 3 ![-1, 0] ![1, 5] (fun k => ![(k : ℝ) / 3, 0]) = .ok S) ∧
    (∃ S : AIS ℝ 2, AIS.reset 3 (![-1, 0] ∘ Equiv.swap 0 1) (![1, 5] ∘ Equiv.swap 0 1) (fun k => ![(k : ℝ) / 3, 0] ∘ Equiv.swap 0 1) = .ok S) ∧
    (![-1, 0] ∘ Equiv.swap 0 1 : Fin 2 → ℝ) = ![0, -1] ∧
    ∀ c x : Fin 2 → ℝ, XF.fin (AIS.proposal 2 (c ∘ Equiv.swap 0 1) (x ∘ Equiv.swap 0 1)) = XF.fin (AIS.proposal 2 c x) :=
  ⟨⟨_, AIS.reset_ok 3 (by norm_num) _ _ _⟩, ⟨_, AIS.reset_ok 3 (by norm_num) _ _ _⟩, by funext i; fin_cases i <;> simp,
    fun c x => by rw [C158_proposal _ two_pos]⟩

end Verif
