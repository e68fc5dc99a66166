import Verif.Props.Scale
import Verif.Proof.MPMC
import Verif.Proof.AIS

/-!
# C152: moving the problem moves the samples

Two samplers are given the same random numbers and clock readings. The first one samples from `p` in the box from `lo` to `hi`,
the second one from the density `x ↦ p (x - b)` in the box from `lo + b` to `hi + b`. Generator outputs that are points (draws
from a proposal located at a point of the space) are moved by `b` too.
-/

set_option linter.unusedSectionVars false
set_option autoImplicit false

namespace Verif

/-! ### Loops -/

section loops
variable {σ τ ι κ ρ : Type*}

theorem whileOut_view (f : σ → τ) {cond : σ → Bool} {cond' : τ → Bool} {late : ι → Bool} {body : ι → σ → Out σ}
    {body' : ι → τ → Out τ} (hc : ∀ s, cond' (f s) = cond s)
    (hb : ∀ it s, body' it (f s) = (body it s).view f) : ∀ (script : List ι) (ex : Bool) (s : σ),
    whileOut cond' late body' ex script (f s) = (whileOut cond late body ex script s).view f
  | [], ex, s => by
    unfold whileOut
    rw [hc]
    split <;> rfl
  | it :: rest, ex, s => by
    unfold whileOut
    rw [hc]
    split
    · rw [hb]
      cases body it s with
      | done s' => exact whileOut_view f hc hb rest (late it) s'
      | raised e s' => rfl
      | running s' => rfl
    · rfl

/-- As `whileScript_view`, with different outcomes for the two loops. -/
theorem whileScript_view2 {ι' : Type*} (g : ι → ι') (f : σ → τ) {cond : σ → Bool} {cond' : τ → Bool} {late : ι → Bool} {late' : ι' → Bool}
    {body : ι → σ → σ × Option PyErr} {body' : ι' → τ → τ × Option PyErr} (hc : ∀ s, cond' (f s) = cond s)
    (hl : ∀ it, late' (g it) = late it)
    (hb : ∀ it s, body' (g it) (f s) = (f (body it s).1, (body it s).2)) : ∀ (script : List ι) (ex : Bool) (s : σ),
    whileScript cond' late' body' ex (script.map g) (f s) = (whileScript cond late body ex script s).view f
  | [], ex, s => by
    unfold whileScript
    rw [List.map_nil]
    dsimp only
    rw [hc]
    split <;> rfl
  | it :: rest, ex, s => by
    rw [List.map_cons]
    unfold whileScript
    rw [hc]
    split
    · rw [hb, hl]
      cases h : body it s with
      | mk s' e =>
        cases e with
        | none => exact whileScript_view2 g f hc hl hb rest (late it) s'
        | some e => rfl
    · rfl

/-- A session of a second object that follows the first one. -/
theorem session_sim {κ' : Type*} (g : κ → κ') (f : σ → τ) (see : σ → ρ) (see' : τ → ρ) (hsee : ∀ s, see' (f s) = see s)
    {call : κ → σ → Out σ} {call' : κ' → τ → Out τ}
    (h : ∀ k s, call' (g k) (f s) = (call k s).view f) : ∀ (ks : List κ) (s : σ),
    session call' see' (ks.map g) (f s) = session call see ks s
  | [], _ => rfl
  | k :: ks, s => by
    have e : see' ∘ f = see := funext hsee
    rw [List.map_cons, session, session, h, Out.view_view, e, Out.view_state, session_sim g f see see' hsee h ks]

end loops

theorem clip_add {K : Type*} [Field K] [LinearOrder K] [IsStrictOrderedRing K] {d : ℕ} (b lo hi x : Fin d → K) :
    clip (lo + b) (hi + b) (x + b) = clip lo hi x + b := by
  funext i
  simp only [clip, Pi.add_apply]
  rw [max_add_add_right, min_add_add_right]

/-! ### Metropolis-Hastings -/

namespace MHast
variable {d : ℕ}

/-- The sampler with all stored points moved by `b`. -/
def moved (b : Fin d → ℝ) (S : MH d) : MH d :=
  { S with cur := S.cur + b, trajS := S.trajS.map (· + b), samples := S.samples.map (· + b), kde := S.kde.map (List.map (· + b)) }

/-- The problem moved by `b`: bounds and target. -/
def Cfg.moved (b : Fin d → ℝ) (c : Cfg d) : Cfg d :=
  { c with lo := c.lo + b, hi := c.hi + b, target := fun x => c.target (x - b) }

theorem tryBody_moved (b : Fin d → ℝ) (c : Cfg d) (x : Fin d → ℝ) (t : Try d) (p : MH d × (Fin d → ℝ) × Bool) :
    tryBody (c.moved b) (x + b) t (moved b p.1, p.2.1 + b, p.2.2) =
      ((moved b (tryBody c x t p).1.1, (tryBody c x t p).1.2.1 + b, (tryBody c x t p).1.2.2), (tryBody c x t p).2) := by
  have hy : propose (c.moved b) (x + b) t.z = propose c x t.z + b := by
    unfold propose Cfg.moved
    dsimp only
    rw [show x + b + t.z = x + t.z + b by abel, clip_add]
  have ha : ∀ y, accepts (c.moved b) (x + b) (y + b) t.u = accepts c x y t.u := by
    intro y
    unfold accepts alpha Cfg.moved
    dsimp only
    rw [add_sub_cancel_right, add_sub_cancel_right, add_sub_add_right_eq_sub, add_sub_add_right_eq_sub]
  unfold tryBody
  dsimp only
  rw [hy, ha]
  simp [moved]

theorem relabel_moved (b : Fin d → ℝ) (l : Label) (S : MH d) : relabel l (moved b S) = (relabel l S).map (moved b) := by
  unfold relabel
  show (if S.trajT = [] then _ else _) = _
  split <;> rfl

theorem mcmcStep_moved (b : Fin d → ℝ) (c : Cfg d) (x : Fin d → ℝ) (env : StepEnv d) (S : MH d) :
    mcmcStep (c.moved b) (x + b) env (moved b S) = (mcmcStep c x env S).view fun p => (moved b p.1, p.2 + b) := by
  unfold mcmcStep
  have h := whileScript_view (fun p : MH d × (Fin d → ℝ) × Bool => (moved b p.1, p.2.1 + b, p.2.2)) (cond := fun p => !p.2.2)
    (cond' := fun p => !p.2.2) (late := Try.late) (body := tryBody c x) (body' := tryBody (c.moved b) (x + b)) (fun _ => rfl)
    (fun t p => tryBody_moved b c x t p) env.tries env.closed (S, x, false)
  dsimp only at h
  rw [h]
  cases whileScript (fun p => !p.2.2) Try.late (tryBody c x) env.closed env.tries (S, x, false) with
  | running p => rfl
  | raised e p => rfl
  | done p =>
    dsimp only [Out.view]
    rw [relabel_moved]
    cases relabel .accept p.1 <;> rfl

theorem advance_moved (b : Fin d → ℝ) (c : Cfg d) (l : Label) (env : StepEnv d) (S : MH d) :
    advance (c.moved b) l env (moved b S) = (advance c l env S).view (moved b) := by
  unfold advance
  have hc : (moved b S).cur = S.cur + b := rfl
  rw [hc, mcmcStep_moved]
  cases mcmcStep c S.cur env S with
  | running p => rfl
  | raised e p => rfl
  | done p =>
    have h : ({ moved b p.1 with cur := p.2 + b } : MH d) = moved b { p.1 with cur := p.2 } := rfl
    dsimp only [Out.view]
    rw [h, relabel_moved]
    cases relabel l { p.1 with cur := p.2 } <;> rfl

/-- An object and points collected, moved. -/
def moved2 (b : Fin d → ℝ) (p : MH d × List (Fin d → ℝ)) : MH d × List (Fin d → ℝ) := (moved b p.1, p.2.map (· + b))

theorem mcmcIter_moved (b : Fin d → ℝ) (c : Cfg d) (env : ℕ → StepEnv d) (p : MH d × List (Fin d → ℝ)) :
    mcmcIter (c.moved b) env (moved2 b p) = (mcmcIter c env p).view (moved2 b) := by
  unfold mcmcIter
  have h := forN_view (moved b) (g := fun j S => advance c .decorrelation (env j) S)
    (g' := fun j S => advance (c.moved b) .decorrelation (env j) S) (fun j S => advance_moved b c _ (env j) S) c.nSteps p.1
  have e : (moved2 b p).1 = moved b p.1 := rfl
  have e2 : (c.moved b).nSteps = c.nSteps := rfl
  rw [e, e2, h]
  cases forN (fun j S => advance c .decorrelation (env j) S) c.nSteps p.1 with
  | running S => rfl
  | raised e S => rfl
  | done S =>
    dsimp only [Out.view]
    rw [relabel_moved]
    cases relabel .sample S with
    | none => rfl
    | some S' => simp [moved2, moved, Out.view]

theorem mcmc_moved (b : Fin d → ℝ) (c : Cfg d) (n : ℕ) (env : ℕ → ℕ → StepEnv d) (S : MH d) :
    mcmc (c.moved b) n env (moved b S) = (mcmc c n env S).view (moved2 b) :=
  forN_view (moved2 b) (g := fun i p => mcmcIter c (env i) p) (g' := fun i p => mcmcIter (c.moved b) (env i) p)
    (fun i p => mcmcIter_moved b c (env i) p) n (S, [])

theorem burnIn_moved (b : Fin d → ℝ) (c : Cfg d) (burn : ℕ → List (Try d)) (S : MH d) :
    burnIn (c.moved b) burn (moved b S) = (burnIn c burn S).view (moved b) := by
  unfold burnIn
  have h := forN_view (moved b) (g := fun j S => advance c .burnIn ⟨false, burn j⟩ S)
    (g' := fun j S => advance (c.moved b) .burnIn ⟨false, burn j⟩ S) (fun j S => advance_moved b c _ _ S) c.nBurnin S
  have e : (moved b S).isInit = S.isInit := rfl
  have e2 : (c.moved b).nBurnin = c.nBurnin := rfl
  rw [e, e2, h]
  split
  · rfl
  · cases forN (fun j S => advance c .burnIn ⟨false, burn j⟩ S) c.nBurnin S <;> rfl

theorem sample_moved (b : Fin d → ℝ) (c : Cfg d) (n : ℕ) (burn : ℕ → List (Try d)) (env : ℕ → ℕ → ℕ → StepEnv d) (S : MH d) :
    sample (c.moved b) n burn env (moved b S) = (sample c n burn env S).view (moved2 b) := by
  unfold sample
  rw [burnIn_moved]
  cases burnIn c burn S with
  | running S => rfl
  | raised e S => rfl
  | done S =>
    refine forN_view (moved2 b) (g := fun i p => sampleIter c n (env i) p) (g' := fun i p => sampleIter (c.moved b) n (env i) p) ?_ n (S, [])
    intro i p
    unfold sampleIter
    have e : (moved2 b p).1 = moved b p.1 := rfl
    rw [e, mcmc_moved]
    cases mcmc c n (env i) p.1 with
    | running r => rfl
    | raised e r => rfl
    | done r => simp [moved2, Out.view]

theorem body_moved (b : Fin d → ℝ) (c : Cfg d) (it : Iter d) (S : MH d) :
    body (c.moved b) it (moved b S) = (body c it S).view (moved b) := by
  unfold body
  rw [sample_moved]
  cases sample c 1 it.burn it.env S with
  | running r => rfl
  | raised e r => rfl
  | done r => simp [moved2, moved, Out.view]

theorem updateModel_moved (b : Fin d → ℝ) (n : ℕ) (idx : ℕ → ℕ) (xs : List (Fin d → ℝ)) :
    updateModel n idx (xs.map (· + b)) = (updateModel n idx xs).map (List.map (· + b)) := by
  unfold updateModel
  rw [List.length_map]
  by_cases h : xs = []
  · rw [if_pos h, if_pos (by rw [h]; rfl)]
    rfl
  · rw [if_neg h, if_neg (by simpa using h)]
    split
    · rfl
    · simp only [Except.map, List.map_map]
      congr 1
      apply List.map_congr_left
      intro j _
      have hlt : idx j % xs.length < xs.length := Nat.mod_lt _ (List.length_pos_iff.2 h)
      simp [List.getElem?_eq_getElem hlt]

theorem importanceSample_moved (b : Fin d → ℝ) (c : Cfg d) (n : ℕ) (ex : Bool) (script : List (Iter d)) (idx : ℕ → ℕ) (S : MH d) :
    importanceSample (c.moved b) n ex script idx (moved b S) = (importanceSample c n ex script idx S).view (moved b) := by
  unfold importanceSample
  have h := whileOut_view (moved b) (cond := fun S : MH d => decide (S.samples.length < n)) (cond' := fun S : MH d => decide (S.samples.length < n))
    (late := Iter.late) (fun S => by simp [moved]) (fun it S => body_moved b c it S) script ex S
  rw [h]
  cases whileOut (fun S : MH d => decide (S.samples.length < n)) Iter.late (body c) ex script S with
  | running S => rfl
  | raised e S => rfl
  | done S =>
    dsimp only [Out.view]
    have e1 : (moved b S).samples = S.samples.map (· + b) := rfl
    have e2 : (c.moved b).nKde = c.nKde := rfl
    rw [e1, e2, updateModel_moved, List.length_map]
    cases updateModel c.nKde idx S.samples <;> rfl

end MHast

/-- **C152** for Metropolis-Hastings, from new samplers whose first points differ by `b`. The caller sees the samples, the
weights, the logged points with their labels, the centres of the reported density and the counters. -/
theorem C152_mh {d : ℕ} (b : Fin d → ℝ) (c : MHast.Cfg d) (x0 : Fin d → ℝ) (calls : List (ℕ × Bool × List (MHast.Iter d) × (ℕ → ℕ))) :
    session (fun a => MHast.importanceSample { c with lo := c.lo + b, hi := c.hi + b, target := fun x => c.target (x - b) } a.1 a.2.1 a.2.2.1 a.2.2.2)
        (fun S => (S.samples, S.weights, S.trajS, S.trajT, S.kde, S.numPi, S.numQEval, S.numQ)) calls (MHast.init (x0 + b)) =
      session (fun a => MHast.importanceSample c a.1 a.2.1 a.2.2.1 a.2.2.2)
        (fun S => (S.samples.map (· + b), S.weights, S.trajS.map (· + b), S.trajT, S.kde.map (List.map (· + b)), S.numPi, S.numQEval, S.numQ))
        calls (MHast.init x0) := by
  have h := session_sim (fun a : ℕ × Bool × List (MHast.Iter d) × (ℕ → ℕ) => a) (MHast.moved b)
    (fun S => (S.samples.map (· + b), S.weights, S.trajS.map (· + b), S.trajT, S.kde.map (List.map (· + b)), S.numPi, S.numQEval, S.numQ))
    (fun S => (S.samples, S.weights, S.trajS, S.trajT, S.kde, S.numPi, S.numQEval, S.numQ)) (fun _ => rfl)
    (call := fun a => MHast.importanceSample c a.1 a.2.1 a.2.2.1 a.2.2.2)
    (call' := fun a => MHast.importanceSample (c.moved b) a.1 a.2.1 a.2.2.1 a.2.2.2)
    (fun a S => MHast.importanceSample_moved b c a.1 a.2.1 a.2.2.1 a.2.2.2 S) calls (MHast.init x0)
  rw [List.map_id'] at h
  exact h

/-! ### DM-AIS and layered AIS -/

section ais
variable {K : Type*} [Field K] [LinearOrder K] [IsStrictOrderedRing K] {d : ℕ}

/-- The sampler with all stored points moved by `b`. -/
def AIS.moved (b : Fin d → K) (S : AIS K d) : AIS K d :=
  { S with centers := S.centers.map (· + b), samples := S.samples.map (· + b) }

theorem AIS.weigh_moved (b : Fin d → K) {q q' : (Fin d → K) → (Fin d → K) → XF K} (hq : ∀ c x, q' (c + b) (x + b) = q c x)
    (p : (Fin d → K) → XF K) (S : AIS K d) (x : Fin d → K) :
    (S.moved b).weigh q' (fun x => p (x - b)) (x + b) = S.weigh q p x := by
  unfold AIS.weigh AIS.prob AIS.moved
  dsimp only
  rw [add_sub_cancel_right, List.zipWith_map_left]
  simp only [hq]

theorem AIS.batch_moved (b : Fin d → K) (N k : ℕ) (pts : ℕ → ℕ → Fin d → K) :
    AIS.batch N k (fun i j => pts i j + b) = (AIS.batch N k pts).map (· + b) := by
  unfold AIS.batch
  rw [List.map_flatMap]
  simp only [List.map_map]
  rfl

theorem finites_len : ∀ (l : List (XF K)) {ps : List K}, finites l = some ps → ps.length = l.length
  | [], ps, h => by cases h; rfl
  | w :: l, ps, h => by
    cases w with
    | fin x =>
      cases hl : finites l with
      | none => simp [finites, hl] at h
      | some qs =>
        simp [finites, hl] at h
        rw [← h, List.length_cons, List.length_cons, finites_len l hl]
    | nan => simp [finites] at h
    | pinf => simp [finites] at h
    | ninf => simp [finites] at h

theorem DM.resample_moved (b : Fin d → K) (bern : ℕ → ℕ → K → Bool) (xs : List (Fin d → K)) (ws : List (XF K)) (hl : ws.length = xs.length) (S : AIS K d) :
    DM.resample bern (xs.map (· + b)) ws (S.moved b) = ((DM.resample bern xs ws S).1.moved b, (DM.resample bern xs ws S).2) := by
  unfold DM.resample
  cases hp : DM.pvals (ws.map fun w => w / ws.sum) with
  | error e => rfl
  | ok ps =>
    have hps : ps ≠ [] ∧ ps.length = xs.length := by
      unfold DM.pvals at hp
      cases hf : finites (ws.map fun w => w / ws.sum) with
      | none => rw [hf] at hp; cases hp
      | some ps' =>
        rw [hf] at hp
        dsimp only at hp
        split at hp
        · rename_i h
          cases hp
          refine ⟨h.1, ?_⟩
          have := finites_len _ hf
          rw [this, List.length_map, hl]
        · cases hp
    simp only [AIS.moved, List.length_map, List.map_map]
    congr 2
    apply List.map_congr_left
    intro i _
    have hm : (multinomial1 (bern i) ps).length = ps.length := PMC.multinomialGo_length _ _ _ _
    have hlt : argmaxNat (multinomial1 (bern i) ps) < xs.length := by
      have := PMC.argmaxNat_lt (multinomial1 (bern i) ps) (by
        intro h
        rw [h] at hm
        exact hps.1 (List.length_eq_zero_iff.1 hm.symm))
      omega
    simp [List.getElem?_eq_getElem hlt]

theorem AIS.reset_moved (b : Fin d → K) {N : ℕ} {lo hi : Fin d → K} {u : ℕ → Fin d → K} {S S' : AIS K d} (hS : AIS.reset N lo hi u = .ok S)
    (hS' : AIS.reset N (lo + b) (hi + b) u = .ok S') : S' = S.moved b := by
  by_cases hN : N = 0
  · subst hN
    simp [AIS.reset] at hS
  · rw [AIS.reset_ok N (Nat.pos_of_ne_zero hN)] at hS hS'
    cases hS
    cases hS'
    unfold AIS.moved
    dsimp only
    rw [List.map_map]
    congr 1
    apply List.map_congr_left
    intro k _
    funext i
    simp only [Pi.add_apply, Function.comp]
    ring

/-- The outcomes of an iteration with the drawn points moved. -/
def DM.Iter.moved (b : Fin d → K) (it : DM.Iter K d) : DM.Iter K d := { it with pts := fun i j => it.pts i j + b }

theorem DM.body_moved (b : Fin d → K) (N k : ℕ) {q q' : (Fin d → K) → (Fin d → K) → XF K} (hq : ∀ c x, q' (c + b) (x + b) = q c x)
    (p : (Fin d → K) → XF K) (it : DM.Iter K d) (S : AIS K d) :
    DM.body N k q' (fun x => p (x - b)) (it.moved b) (S.moved b) = ((DM.body N k q p it S).1.moved b, (DM.body N k q p it S).2) := by
  unfold DM.body DM.Iter.moved
  dsimp only
  rw [AIS.batch_moved, List.length_map]
  split
  · rfl
  · generalize AIS.batch N k it.pts = xs
    have hS : ({ S.moved b with numQ := (S.moved b).numQ + N * k } : AIS K d) = AIS.moved b { S with numQ := S.numQ + N * k } := rfl
    rw [hS]
    generalize ({ S with numQ := S.numQ + N * k } : AIS K d) = S1
    have hw : (xs.map (· + b)).map ((S1.moved b).weigh q' fun x => p (x - b)) = xs.map (S1.weigh q p) := by
      rw [List.map_map]
      exact List.map_congr_left fun x _ => AIS.weigh_moved b hq p S1 x
    rw [hw]
    have hS2 : (⟨(S.moved b).centers, (S.moved b).modelWeights, (S.moved b).samples, (S.moved b).weights, (S.moved b).numPi + xs.length,
        (S.moved b).numQEval, (S.moved b).numQ + N * k⟩ : AIS K d) =
      AIS.moved b ⟨S.centers, S.modelWeights, S.samples, S.weights, S.numPi + xs.length, S.numQEval, S.numQ + N * k⟩ := rfl
    rw [hS2, DM.resample_moved b _ _ _ (by simp)]
    generalize DM.resample it.bern xs (xs.map (S1.weigh q p)) _ = r
    obtain ⟨S2, e⟩ := r
    cases e with
    | some e => rfl
    | none => simp [AIS.moved]

/-- **C152** for DM-AIS, from new samplers with the same random numbers. `q c x` is the density at `x` of the proposal at `c`. -/
theorem C152_dm (b : Fin d → K) (N k : ℕ) (q : (Fin d → K) → (Fin d → K) → XF K) (hq : ∀ c x, q (c + b) (x + b) = q c x)
    (p : (Fin d → K) → XF K) (lo hi : Fin d → K) (u : ℕ → Fin d → K) (S S' : AIS K d) (hS : AIS.reset N lo hi u = .ok S)
    (hS' : AIS.reset N (lo + b) (hi + b) u = .ok S') (calls : List (ℕ × Bool × List (DM.Iter K d))) :
    session (fun a => DM.importanceSample N k q (fun x => p (x - b)) a.1 a.2.1
          (a.2.2.map fun it : DM.Iter K d => { it with pts := fun i j => it.pts i j + b }))
        (fun S => (S.returned, S.centers, S.modelWeights, S.numPi, S.numQEval, S.numQ)) calls S' =
      session (fun a => DM.importanceSample N k q p a.1 a.2.1 a.2.2)
        (fun S => ((S.returned.1.map (· + b), S.returned.2), S.centers.map (· + b), S.modelWeights, S.numPi, S.numQEval, S.numQ)) calls S := by
  have h0 : S' = S.moved b := AIS.reset_moved b hS hS'
  rw [h0]
  have h := session_sim (fun a : ℕ × Bool × List (DM.Iter K d) => a) (AIS.moved b)
    (fun S => ((S.returned.1.map (· + b), S.returned.2), S.centers.map (· + b), S.modelWeights, S.numPi, S.numQEval, S.numQ))
    (fun S => (S.returned, S.centers, S.modelWeights, S.numPi, S.numQEval, S.numQ)) (fun _ => rfl)
    (call := fun a => DM.importanceSample N k q p a.1 a.2.1 a.2.2)
    (call' := fun a => DM.importanceSample N k q (fun x => p (x - b)) a.1 a.2.1
          (a.2.2.map (DM.Iter.moved b)))
    (fun a S => whileScript_view2 (DM.Iter.moved b) (AIS.moved b) (cond := fun S => decide (S.samples.length < a.1))
      (cond' := fun S => decide (S.samples.length < a.1)) (late := DM.Iter.late) (late' := DM.Iter.late)
      (fun S => by simp [AIS.moved]) (fun _ => rfl)
      (fun it S => DM.body_moved b N k hq p it S) a.2.2 a.2.1 S) calls S
  rw [List.map_id'] at h
  exact h

theorem LAIS.mcmcMh_moved (b lo hi : Fin d → K) (p : (Fin d → K) → XF K) (L : ℕ) (move : ℕ → Fin d → K) (alpha : ℕ → K) (x : Fin d → K) :
    LAIS.mcmcMh (lo + b) (hi + b) (fun x => p (x - b)) L move alpha (x + b) = LAIS.mcmcMh lo hi p L move alpha x + b := by
  unfold LAIS.mcmcMh
  have hs : ∀ l (x : Fin d → K), LAIS.mhStep (lo + b) (hi + b) (fun x => p (x - b)) (move l) (alpha l) (x + b) =
      LAIS.mhStep lo hi p (move l) (alpha l) x + b := by
    intro l x
    unfold LAIS.mhStep
    dsimp only
    rw [show x + b + move l = x + move l + b by abel, clip_add]
    simp only [add_sub_cancel_right]
    split <;> rfl
  generalize List.range L = ls
  induction ls generalizing x with
  | nil => rfl
  | cons l ls ih => rw [List.foldl_cons, List.foldl_cons, hs, ih]

/-- The outcomes of an iteration with the drawn points moved. -/
def LAIS.Iter.moved (b : Fin d → K) (it : LAIS.Iter K d) : LAIS.Iter K d := { it with pts := fun i j => it.pts i j + b }

theorem LAIS.body_moved (b : Fin d → K) (N k L : ℕ) (lo hi : Fin d → K) {q q' : (Fin d → K) → (Fin d → K) → XF K}
    (hq : ∀ c x, q' (c + b) (x + b) = q c x) (p : (Fin d → K) → XF K) (it : LAIS.Iter K d) (S : AIS K d) :
    LAIS.body N k L (lo + b) (hi + b) q' (fun x => p (x - b)) (it.moved b) (S.moved b) =
      ((LAIS.body N k L lo hi q p it S).1.moved b, (LAIS.body N k L lo hi q p it S).2) := by
  unfold LAIS.body LAIS.Iter.moved
  dsimp only
  rw [AIS.batch_moved, List.length_map]
  split
  · rfl
  · generalize AIS.batch N k it.pts = xs
    have hS : ({ S.moved b with numQ := (S.moved b).numQ + N * k } : AIS K d) = AIS.moved b { S with numQ := S.numQ + N * k } := rfl
    rw [hS]
    generalize ({ S with numQ := S.numQ + N * k } : AIS K d) = S1
    have hw : (xs.map (· + b)).map ((S1.moved b).weigh q' fun x => p (x - b)) = xs.map (S1.weigh q p) := by
      rw [List.map_map]
      exact List.map_congr_left fun x _ => AIS.weigh_moved b hq p S1 x
    rw [hw]
    unfold LAIS.resample
    simp only [AIS.moved, List.length_map, List.map_append, Nested.mapIdx_of_map, LAIS.mcmcMh_moved]
    congr 2
    apply List.ext_getElem
    · simp
    · intro i h1 h2
      simp

/-- **C152** for layered AIS, from new samplers with the same random numbers. -/
theorem C152_lais (b : Fin d → K) (N k L : ℕ) (q : (Fin d → K) → (Fin d → K) → XF K) (hq : ∀ c x, q (c + b) (x + b) = q c x)
    (p : (Fin d → K) → XF K) (lo hi : Fin d → K) (u : ℕ → Fin d → K) (S S' : AIS K d) (hS : AIS.reset N lo hi u = .ok S)
    (hS' : AIS.reset N (lo + b) (hi + b) u = .ok S') (calls : List (ℕ × Bool × List (LAIS.Iter K d))) :
    session (fun a => LAIS.importanceSample N k L (lo + b) (hi + b) q (fun x => p (x - b)) a.1 a.2.1
          (a.2.2.map fun it : LAIS.Iter K d => { it with pts := fun i j => it.pts i j + b }))
        (fun S => (S.returned, S.centers, S.modelWeights, S.numPi, S.numQEval, S.numQ)) calls S' =
      session (fun a => LAIS.importanceSample N k L lo hi q p a.1 a.2.1 a.2.2)
        (fun S => ((S.returned.1.map (· + b), S.returned.2), S.centers.map (· + b), S.modelWeights, S.numPi, S.numQEval, S.numQ)) calls S := by
  have h0 : S' = S.moved b := AIS.reset_moved b hS hS'
  rw [h0]
  have h := session_sim (fun a : ℕ × Bool × List (LAIS.Iter K d) => a) (AIS.moved b)
    (fun S => ((S.returned.1.map (· + b), S.returned.2), S.centers.map (· + b), S.modelWeights, S.numPi, S.numQEval, S.numQ))
    (fun S => (S.returned, S.centers, S.modelWeights, S.numPi, S.numQEval, S.numQ)) (fun _ => rfl)
    (call := fun a => LAIS.importanceSample N k L lo hi q p a.1 a.2.1 a.2.2)
    (call' := fun a => LAIS.importanceSample N k L (lo + b) (hi + b) q (fun x => p (x - b)) a.1 a.2.1
          (a.2.2.map (LAIS.Iter.moved b)))
    (fun a S => whileScript_view2 (LAIS.Iter.moved b) (AIS.moved b) (cond := fun S => decide (S.samples.length < a.1))
      (cond' := fun S => decide (S.samples.length < a.1)) (late := LAIS.Iter.late) (late' := LAIS.Iter.late)
      (fun S => by simp [AIS.moved]) (fun _ => rfl)
      (fun it S => LAIS.body_moved b N k L lo hi hq p it S) a.2.2 a.2.1 S) calls S
  rw [List.map_id'] at h
  exact h

end ais
/-- A proposal that depends on the distance to its centre, and two samplers constructed from the same random numbers. -/
example : (∀ c x : Fin 1 → ℚ, let q := fun c x : Fin 1 → ℚ => XF.fin (1 / (1 + (x 0 - c 0) ^ 2))
      q (c + ![10]) (x + ![10]) = q c x) ∧
    (∃ S : AIS ℚ 1, AIS.reset 2 ![0] ![1] (fun k => ![(k : ℚ) / 2]) = .ok S ∧ S.centers = [![0], ![1/2]]) ∧
    ∃ S : AIS ℚ 1, AIS.reset 2 (![0] + ![10]) (![1] + ![10]) (fun k => ![(k : ℚ) / 2]) = .ok S ∧ S.centers = [![10], ![21/2]] := by
  refine ⟨fun c x => by simp, ?_, ?_⟩
  · cases hr : AIS.reset (K := ℚ) (d := 1) 2 ![0] ![1] (fun k => ![(k : ℚ) / 2]) with
    | error e => simp [AIS.reset, setWeights] at hr
    | ok S =>
      refine ⟨S, rfl, ?_⟩
      simp [AIS.reset, setWeights] at hr
      rw [← hr]
      simp [List.range_succ]
      constructor <;> (funext i; fin_cases i; norm_num)
  · cases hr : AIS.reset (K := ℚ) (d := 1) 2 (![0] + ![10]) (![1] + ![10]) (fun k => ![(k : ℚ) / 2]) with
    | error e => simp [AIS.reset, setWeights] at hr
    | ok S =>
      refine ⟨S, rfl, ?_⟩
      simp [AIS.reset, setWeights] at hr
      rw [← hr]
      simp [List.range_succ]
      constructor <;> (funext i; fin_cases i; norm_num)

end Verif
