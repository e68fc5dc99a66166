import Verif.Props.Shift
import Verif.Model.Rejection

/-!
# C157: the units of the axes

Two samplers are given the same random numbers and clock readings. The first one samples from the density `p` in the box from `lo` to
`hi`. The second one has the same problem with the axis `i` in other units, `v i` of which are one of the first: the box goes from
`v * lo` to `v * hi` and the density of the target is `x ↦ p (x / v) / ∏ v`. The proposals are converted alike.
-/

set_option linter.unusedSectionVars false
set_option autoImplicit false

namespace Verif

section loops
variable {σ τ ι : Type*}

/-- As `whileOut_view`, with different outcomes for the two loops. -/
theorem whileOut_view2 {ι' : Type*} (g : ι → ι') (f : σ → τ) {cond : σ → Bool} {cond' : τ → Bool} {late : ι → Bool} {late' : ι' → Bool}
    {body : ι → σ → Out σ} {body' : ι' → τ → Out τ} (hc : ∀ s, cond' (f s) = cond s) (hl : ∀ it, late' (g it) = late it)
    (hb : ∀ it s, body' (g it) (f s) = (body it s).view f) : ∀ (script : List ι) (ex : Bool) (s : σ),
    whileOut cond' late' body' ex (script.map g) (f s) = (whileOut cond late body ex script s).view f
  | [], ex, s => by
    rw [List.map_nil]
    unfold whileOut
    rw [hc]
    split <;> rfl
  | it :: rest, ex, s => by
    rw [List.map_cons]
    unfold whileOut
    rw [hc]
    split
    · rw [hb, hl]
      cases body it s with
      | done s' => exact whileOut_view2 g f hc hl hb rest (late it) s'
      | raised e s' => rfl
      | running s' => rfl
    · rfl

end loops

section arith
variable {K : Type*} [Field K] [LinearOrder K] [IsStrictOrderedRing K] {d : ℕ}

theorem stretch_cancel {v : Fin d → K} (hv : ∀ i, 0 < v i) (x : Fin d → K) : v * x / v = x := by
  funext i
  simp only [Pi.div_apply, Pi.mul_apply]
  exact mul_div_cancel_left₀ _ (hv i).ne'

theorem clip_stretch {v : Fin d → K} (hv : ∀ i, 0 < v i) (lo hi x : Fin d → K) : clip (v * lo) (v * hi) (v * x) = v * clip lo hi x := by
  funext i
  simp only [clip, Pi.mul_apply]
  rw [mul_min_of_nonneg _ _ (hv i).le, mul_max_of_nonneg _ _ (hv i).le]

theorem XF.scale_mul {c : K} (hc : 0 < c) (a b : XF K) : XF.fin c * a * b = XF.fin c * (a * b) := by
  cases a with
  | nan => simp
  | fin x =>
    cases b with
    | nan => simp
    | fin y => simp [mul_assoc]
    | pinf =>
      rw [XF.fin_mul]
      show XF.infMul (c * x) = XF.fin c * XF.infMul x
      rw [scale_infMul hc, fin_mul_infMul hc]
    | ninf =>
      rw [XF.fin_mul]
      show XF.neg (XF.infMul (c * x)) = XF.fin c * XF.neg (XF.infMul x)
      rw [scale_infMul hc]
      unfold XF.infMul
      split
      · exact (fin_mul_ninf hc).symm
      · split
        · exact (fin_mul_pinf hc).symm
        · rfl
  | pinf =>
    rw [fin_mul_pinf hc]
    cases b with
    | nan => simp
    | fin y => exact (fin_mul_infMul hc y).symm
    | pinf => exact (fin_mul_pinf hc).symm
    | ninf => exact (fin_mul_ninf hc).symm
  | ninf =>
    rw [fin_mul_ninf hc]
    cases b with
    | nan => simp
    | fin y =>
      show XF.neg (XF.infMul y) = XF.fin c * XF.neg (XF.infMul y)
      unfold XF.infMul
      split
      · exact (fin_mul_ninf hc).symm
      · split
        · exact (fin_mul_pinf hc).symm
        · rfl
    | pinf => exact (fin_mul_ninf hc).symm
    | ninf => exact (fin_mul_pinf hc).symm

end arith

/-! ### Metropolis-Hastings -/

namespace MHast
variable {d : ℕ} (v : Fin d → ℝ)

/-- The sampler with all stored points in the other units. -/
def stretched (S : MH d) : MH d :=
  { S with cur := v * S.cur, trajS := S.trajS.map (v * ·), samples := S.samples.map (v * ·), kde := S.kde.map (List.map (v * ·)) }

/-- The problem in the other units; the logarithms of the densities change by constants. -/
noncomputable def Cfg.stretched (l m : ℝ) (c : Cfg d) : Cfg d :=
  { c with lo := v * c.lo, hi := v * c.hi, target := fun x => c.target (x / v) + XF.fin l, prop := fun x => c.prop (x / v) + XF.fin m }

/-- The moves of an iteration in the other units. -/
def Try.stretched (t : Try d) : Try d := { t with z := v * t.z }

/-- The moves of an iteration in the other units. -/
def StepEnv.stretched (e : StepEnv d) : StepEnv d := { e with tries := e.tries.map (Try.stretched v) }

/-- The moves of an iteration in the other units. -/
def Iter.stretched (it : Iter d) : Iter d :=
  { it with burn := fun j => (it.burn j).map (Try.stretched v), env := fun i j k => (it.env i j k).stretched v }

variable {v} (hv : ∀ i, 0 < v i) (l m : ℝ)
include hv

theorem tryBody_stretched (c : Cfg d) (x : Fin d → ℝ) (t : Try d) (p : MH d × (Fin d → ℝ) × Bool) :
    tryBody (c.stretched v l m) (v * x) (t.stretched v) (stretched v p.1, v * p.2.1, p.2.2) =
      ((stretched v (tryBody c x t p).1.1, v * (tryBody c x t p).1.2.1, (tryBody c x t p).1.2.2), (tryBody c x t p).2) := by
  have hy : propose (c.stretched v l m) (v * x) (t.stretched v).z = v * propose c x t.z := by
    unfold propose Cfg.stretched Try.stretched
    dsimp only
    rw [← mul_add, clip_stretch hv]
  have ha : ∀ y, accepts (c.stretched v l m) (v * x) (v * y) t.u = accepts c x y t.u := by
    intro y
    unfold accepts alpha Cfg.stretched
    dsimp only
    rw [← mul_sub, ← mul_sub, stretch_cancel hv, stretch_cancel hv, stretch_cancel hv, stretch_cancel hv, XF.sub_shift, XF.sub_shift]
  have hu : (t.stretched v).u = t.u := rfl
  unfold tryBody
  dsimp only
  rw [hy, hu, ha]
  simp [stretched]

omit hv in
theorem relabel_stretched (l : Label) (S : MH d) : relabel l (stretched v S) = (relabel l S).map (stretched v) := by
  unfold relabel
  show (if S.trajT = [] then _ else _) = _
  split <;> rfl

theorem mcmcStep_stretched (c : Cfg d) (x : Fin d → ℝ) (env : StepEnv d) (S : MH d) :
    mcmcStep (c.stretched v l m) (v * x) (env.stretched v) (stretched v S) = (mcmcStep c x env S).view fun p => (stretched v p.1, v * p.2) := by
  unfold mcmcStep
  have h := whileScript_view2 (Try.stretched v) (fun p : MH d × (Fin d → ℝ) × Bool => (stretched v p.1, v * p.2.1, p.2.2)) (cond := fun p => !p.2.2)
    (cond' := fun p => !p.2.2) (late := Try.late) (late' := Try.late) (body := tryBody c x) (body' := tryBody (c.stretched v l m) (v * x)) (fun _ => rfl)
    (fun _ => rfl) (fun t p => tryBody_stretched hv l m c x t p) env.tries env.closed (S, x, false)
  dsimp only at h
  have h1 : (env.stretched v).tries = env.tries.map (Try.stretched v) := rfl
  have h2 : (env.stretched v).closed = env.closed := rfl
  rw [h1, h2, h]
  cases whileScript (fun p => !p.2.2) Try.late (tryBody c x) env.closed env.tries (S, x, false) with
  | running p => rfl
  | raised e p => rfl
  | done p =>
    dsimp only [Out.view]
    rw [relabel_stretched]
    cases relabel .accept p.1 <;> rfl

theorem advance_stretched (c : Cfg d) (lab : Label) (env : StepEnv d) (S : MH d) :
    advance (c.stretched v l m) lab (env.stretched v) (stretched v S) = (advance c lab env S).view (stretched v) := by
  unfold advance
  have hc : (stretched v S).cur = v * S.cur := rfl
  rw [hc, mcmcStep_stretched hv]
  cases mcmcStep c S.cur env S with
  | running p => rfl
  | raised e p => rfl
  | done p =>
    have h : ({ stretched v p.1 with cur := v * p.2 } : MH d) = stretched v { p.1 with cur := p.2 } := rfl
    dsimp only [Out.view]
    rw [h, relabel_stretched]
    cases relabel lab { p.1 with cur := p.2 } <;> rfl

omit hv in
/-- An object and points collected, in the other units. -/
def stretched2 (v : Fin d → ℝ) (p : MH d × List (Fin d → ℝ)) : MH d × List (Fin d → ℝ) := (stretched v p.1, p.2.map (v * ·))

theorem mcmcIter_stretched (c : Cfg d) (env : ℕ → StepEnv d) (p : MH d × List (Fin d → ℝ)) :
    mcmcIter (c.stretched v l m) (fun j => (env j).stretched v) (stretched2 v p) = (mcmcIter c env p).view (stretched2 v) := by
  unfold mcmcIter
  have h := forN_view (stretched v) (g := fun j S => advance c .decorrelation (env j) S)
    (g' := fun j S => advance (c.stretched v l m) .decorrelation ((env j).stretched v) S)
    (fun j S => advance_stretched hv l m c _ (env j) S) c.nSteps p.1
  have e : (stretched2 v p).1 = stretched v p.1 := rfl
  have e2 : (c.stretched v l m).nSteps = c.nSteps := rfl
  rw [e, e2, h]
  cases forN (fun j S => advance c .decorrelation (env j) S) c.nSteps p.1 with
  | running S => rfl
  | raised e S => rfl
  | done S =>
    dsimp only [Out.view]
    rw [relabel_stretched]
    cases relabel .sample S with
    | none => rfl
    | some S' => simp [stretched2, stretched, Out.view]

theorem mcmc_stretched (c : Cfg d) (n : ℕ) (env : ℕ → ℕ → StepEnv d) (S : MH d) :
    mcmc (c.stretched v l m) n (fun i j => (env i j).stretched v) (stretched v S) = (mcmc c n env S).view (stretched2 v) :=
  forN_view (stretched2 v) (g := fun i p => mcmcIter c (env i) p)
    (g' := fun i p => mcmcIter (c.stretched v l m) (fun j => (env i j).stretched v) p)
    (fun i p => mcmcIter_stretched hv l m c (env i) p) n (S, [])

theorem burnIn_stretched (c : Cfg d) (burn : ℕ → List (Try d)) (S : MH d) :
    burnIn (c.stretched v l m) (fun j => (burn j).map (Try.stretched v)) (stretched v S) = (burnIn c burn S).view (stretched v) := by
  unfold burnIn
  have h := forN_view (stretched v) (g := fun j S => advance c .burnIn ⟨false, burn j⟩ S)
    (g' := fun j S => advance (c.stretched v l m) .burnIn ⟨false, (burn j).map (Try.stretched v)⟩ S)
    (fun j S => advance_stretched hv l m c _ ⟨false, burn j⟩ S) c.nBurnin S
  have e : (stretched v S).isInit = S.isInit := rfl
  have e2 : (c.stretched v l m).nBurnin = c.nBurnin := rfl
  rw [e, e2, h]
  split
  · rfl
  · cases forN (fun j S => advance c .burnIn ⟨false, burn j⟩ S) c.nBurnin S <;> rfl

theorem sample_stretched (c : Cfg d) (n : ℕ) (burn : ℕ → List (Try d)) (env : ℕ → ℕ → ℕ → StepEnv d) (S : MH d) :
    sample (c.stretched v l m) n (fun j => (burn j).map (Try.stretched v)) (fun i j k => (env i j k).stretched v) (stretched v S) =
      (sample c n burn env S).view (stretched2 v) := by
  unfold sample
  rw [burnIn_stretched hv]
  cases burnIn c burn S with
  | running S => rfl
  | raised e S => rfl
  | done S =>
    refine forN_view (stretched2 v) (g := fun i p => sampleIter c n (env i) p)
      (g' := fun i p => sampleIter (c.stretched v l m) n (fun j k => (env i j k).stretched v) p) ?_ n (S, [])
    intro i p
    unfold sampleIter
    have e : (stretched2 v p).1 = stretched v p.1 := rfl
    rw [e, mcmc_stretched hv]
    cases mcmc c n (env i) p.1 with
    | running r => rfl
    | raised e r => rfl
    | done r => simp [stretched2, Out.view]

theorem body_stretched (c : Cfg d) (it : Iter d) (S : MH d) :
    body (c.stretched v l m) (it.stretched v) (stretched v S) = (body c it S).view (stretched v) := by
  unfold body
  have h := sample_stretched hv l m c 1 it.burn it.env S
  have h1 : (it.stretched v).burn = fun j => (it.burn j).map (Try.stretched v) := rfl
  have h2 : (it.stretched v).env = fun i j k => (it.env i j k).stretched v := rfl
  rw [h1, h2, h]
  cases sample c 1 it.burn it.env S with
  | running r => rfl
  | raised e r => rfl
  | done r => simp [stretched2, stretched, Out.view]

omit hv in
theorem updateModel_map {d' : ℕ} (φ : (Fin d → ℝ) → Fin d' → ℝ) (n : ℕ) (idx : ℕ → ℕ) (xs : List (Fin d → ℝ)) :
    updateModel n idx (xs.map φ) = (updateModel n idx xs).map (List.map φ) := by
  unfold updateModel
  rw [List.length_map]
  by_cases h : xs = []
  · rw [if_pos h, if_pos (by rw [h]; rfl)]
    rfl
  · rw [if_neg h, if_neg (by simpa using h)]
    split
    · rfl
    · simp only [Except.map, List.map_map]
      congr 1
      apply List.map_congr_left
      intro j _
      have hlt : idx j % xs.length < xs.length := Nat.mod_lt _ (List.length_pos_iff.2 h)
      simp [List.getElem?_eq_getElem hlt]

theorem importanceSample_stretched (c : Cfg d) (n : ℕ) (ex : Bool) (script : List (Iter d)) (idx : ℕ → ℕ) (S : MH d) :
    importanceSample (c.stretched v l m) n ex (script.map (Iter.stretched v)) idx (stretched v S) =
      (importanceSample c n ex script idx S).view (stretched v) := by
  unfold importanceSample
  have h := whileOut_view2 (Iter.stretched v) (stretched v) (cond := fun S : MH d => decide (S.samples.length < n))
    (cond' := fun S : MH d => decide (S.samples.length < n)) (late := Iter.late) (late' := Iter.late)
    (fun S => by simp [stretched]) (fun _ => rfl) (fun it S => body_stretched hv l m c it S) script ex S
  rw [h]
  cases whileOut (fun S : MH d => decide (S.samples.length < n)) Iter.late (body c) ex script S with
  | running S => rfl
  | raised e S => rfl
  | done S =>
    dsimp only [Out.view]
    have e1 : (stretched v S).samples = S.samples.map (v * ·) := rfl
    have e2 : (c.stretched v l m).nKde = c.nKde := rfl
    rw [e1, e2, updateModel_map, List.length_map]
    cases updateModel c.nKde idx S.samples <;> rfl

end MHast

/-- **C157** for Metropolis-Hastings, from new samplers whose first points are the same place. The sampler uses the logarithms of the
densities of target and proposal, so the factor `1 / ∏ v` is the summand `-log (∏ v)`. The caller sees the samples, the weights,
the logged points with their labels, the centres of the reported density and the counters. -/
theorem C157_mh {d : ℕ} (v : Fin d → ℝ) (hv : ∀ i, 0 < v i) (c : MHast.Cfg d) (x0 : Fin d → ℝ)
    (calls : List (ℕ × Bool × List (MHast.Iter d) × (ℕ → ℕ))) :
    session (fun a => MHast.importanceSample
          { c with
            lo := v * c.lo
            hi := v * c.hi
            target := fun x => c.target (x / v) + XF.fin (-Real.log (∏ i, v i))
            prop := fun x => c.prop (x / v) + XF.fin (-Real.log (∏ i, v i)) } a.1 a.2.1
          (a.2.2.1.map fun it : MHast.Iter d =>
            { it with
              burn := fun j => (it.burn j).map fun t : MHast.Try d => { t with z := v * t.z }
              env := fun i j k => { it.env i j k with tries := (it.env i j k).tries.map fun t : MHast.Try d => { t with z := v * t.z } } })
          a.2.2.2)
        (fun S => (S.samples, S.weights, S.trajS, S.trajT, S.kde, S.numPi, S.numQEval, S.numQ)) calls (MHast.init (v * x0)) =
      session (fun a => MHast.importanceSample c a.1 a.2.1 a.2.2.1 a.2.2.2)
        (fun S => (S.samples.map (v * ·), S.weights, S.trajS.map (v * ·), S.trajT, S.kde.map (List.map (v * ·)), S.numPi, S.numQEval, S.numQ))
        calls (MHast.init x0) := by
  have h := session_sim (fun a : ℕ × Bool × List (MHast.Iter d) × (ℕ → ℕ) => a) (MHast.stretched v)
    (fun S => (S.samples.map (v * ·), S.weights, S.trajS.map (v * ·), S.trajT, S.kde.map (List.map (v * ·)), S.numPi, S.numQEval, S.numQ))
    (fun S => (S.samples, S.weights, S.trajS, S.trajT, S.kde, S.numPi, S.numQEval, S.numQ)) (fun _ => rfl)
    (call := fun a => MHast.importanceSample c a.1 a.2.1 a.2.2.1 a.2.2.2)
    (call' := fun a => MHast.importanceSample (c.stretched v (-Real.log (∏ i, v i)) (-Real.log (∏ i, v i))) a.1 a.2.1
      (a.2.2.1.map (MHast.Iter.stretched v)) a.2.2.2)
    (fun a S => MHast.importanceSample_stretched hv _ _ c a.1 a.2.1 a.2.2.1 a.2.2.2 S) calls (MHast.init x0)
  rw [List.map_id'] at h
  exact h

/-! ### Rejection sampling -/

namespace Rejection
variable {d d' : ℕ}

/-- The sampler with all stored points mapped by `φ`. -/
def Rej.mapped (φ : (Fin d → ℝ) → Fin d' → ℝ) (S : Rej d) : Rej d' :=
  { S with samples := S.samples.map φ, kde := S.kde.map (List.map φ) }

/-- The outcomes of an iteration with the drawn points mapped by `φ`. -/
def Iter.mapped (φ : (Fin d → ℝ) → Fin d' → ℝ) (it : Iter d) : Iter d' := { it with pts := fun j => φ (it.pts j) }

theorem importanceSample_mapped (φ : (Fin d → ℝ) → Fin d' → ℝ) (J : (Fin d → ℝ) → ℝ) (hJ : ∀ x, 0 < J x) (c : Cfg d) (c' : Cfg d')
    (ht : ∀ x, c'.target (φ x) = XF.fin (J x)⁻¹ * c.target x) (hp : ∀ x, c'.prop (φ x) = XF.fin (J x)⁻¹ * c.prop x)
    (hs : c'.scaling = c.scaling) (hk : c'.nKde = c.nKde) (n : ℕ) (ex : Bool) (script : List (Iter d)) (idx : ℕ → ℕ) (S : Rej d) :
    importanceSample c' n ex (script.map (Iter.mapped φ)) idx (S.mapped φ) = (importanceSample c n ex script idx S).view (Rej.mapped φ) := by
  have hr : ∀ x, ratio c' (φ x) = ratio c x := by
    intro x
    unfold ratio
    rw [ht, hp, hs, XF.scale_mul (inv_pos.2 (hJ x)), XF.scale_cancel (inv_pos.2 (hJ x))]
  have hb : ∀ (it : Iter d) (S : Rej d), body c' n (it.mapped φ) (S.mapped φ) = ((body c n it S).1.mapped φ, (body c n it S).2) := by
    intro it S
    unfold body
    simp only [Iter.mapped, Rej.mapped, accepts, hr, List.length_map, List.map_append, List.map_map]
    rfl
  unfold importanceSample
  rw [whileScript_view2 (Iter.mapped φ) (Rej.mapped φ) (cond := fun S : Rej d => decide (S.samples.length < n))
    (late := Iter.late) (body := body c n) (fun S => by simp [Rej.mapped]) (fun _ => rfl) hb script ex S]
  cases whileScript (fun S : Rej d => decide (S.samples.length < n)) Iter.late (body c n) ex script S with
  | running S => rfl
  | raised e S => rfl
  | done S =>
    dsimp only [Out.view]
    have e1 : (S.mapped φ).samples = S.samples.map φ := rfl
    rw [e1, hk, MHast.updateModel_map]
    cases MHast.updateModel c.nKde idx S.samples <;> rfl

end Rejection

/-- **C157** for rejection sampling holds for every change of coordinates `φ`, not only for changes of the units: if the densities of
target and proposal in the new coordinates are those in the old ones divided by the same positive number (the Jacobian `J x`), the
sampler accepts the same draws. -/
theorem C157_rejection {d d' : ℕ} (φ : (Fin d → ℝ) → Fin d' → ℝ) (J : (Fin d → ℝ) → ℝ) (hJ : ∀ x, 0 < J x)
    (target prop : (Fin d → ℝ) → XF ℝ) (target' prop' : (Fin d' → ℝ) → XF ℝ) (ht : ∀ x, target' (φ x) = XF.fin (J x)⁻¹ * target x)
    (hp : ∀ x, prop' (φ x) = XF.fin (J x)⁻¹ * prop x) (scaling : ℝ) (nKde : ℕ)
    (calls : List (ℕ × Bool × List (Rejection.Iter d) × (ℕ → ℕ))) :
    session (fun a => Rejection.importanceSample ⟨target', prop', scaling, nKde⟩ a.1 a.2.1
          (a.2.2.1.map fun it : Rejection.Iter d => ⟨fun j => φ (it.pts j), it.u, it.late⟩) a.2.2.2)
        (fun S => (S.samples, S.weights, S.kde, S.numPi, S.numQEval, S.numQ)) calls Rejection.init =
      session (fun a => Rejection.importanceSample ⟨target, prop, scaling, nKde⟩ a.1 a.2.1 a.2.2.1 a.2.2.2)
        (fun S => (S.samples.map φ, S.weights, S.kde.map (List.map φ), S.numPi, S.numQEval, S.numQ)) calls Rejection.init := by
  have h := session_sim (fun a : ℕ × Bool × List (Rejection.Iter d) × (ℕ → ℕ) => a) (Rejection.Rej.mapped φ)
    (fun S => (S.samples.map φ, S.weights, S.kde.map (List.map φ), S.numPi, S.numQEval, S.numQ))
    (fun S => (S.samples, S.weights, S.kde, S.numPi, S.numQEval, S.numQ)) (fun _ => rfl)
    (call := fun a => Rejection.importanceSample ⟨target, prop, scaling, nKde⟩ a.1 a.2.1 a.2.2.1 a.2.2.2)
    (call' := fun a => Rejection.importanceSample ⟨target', prop', scaling, nKde⟩ a.1 a.2.1 (a.2.2.1.map (Rejection.Iter.mapped φ)) a.2.2.2)
    (fun a S => Rejection.importanceSample_mapped φ J hJ ⟨target, prop, scaling, nKde⟩ ⟨target', prop', scaling, nKde⟩ ht hp rfl rfl
      a.1 a.2.1 a.2.2.1 a.2.2.2 S) calls Rejection.init
  rw [List.map_id'] at h
  exact h

/-- A target and a proposal on the line in logarithmic coordinates `log y = x`, as hypotheses of `C157_rejection`: the densities in the
new coordinates are those of a logarithmic normal type. A draw is accepted in both. -/
example : let φ : (Fin 1 → ℝ) → Fin 1 → ℝ := fun x => ![Real.exp (x 0)]
    let target : (Fin 1 → ℝ) → XF ℝ := fun x => .fin (Real.exp (-(x 0) ^ 2))
    let prop : (Fin 1 → ℝ) → XF ℝ := fun _ => .fin 1
    let target' : (Fin 1 → ℝ) → XF ℝ := fun y => XF.fin (y 0)⁻¹ * .fin (Real.exp (-(Real.log (y 0)) ^ 2))
    let prop' : (Fin 1 → ℝ) → XF ℝ := fun y => XF.fin (y 0)⁻¹ * .fin 1
    (∀ x : Fin 1 → ℝ, 0 < Real.exp (x 0)) ∧ (∀ x, target' (φ x) = XF.fin (Real.exp (x 0))⁻¹ * target x) ∧
    (∀ x, prop' (φ x) = XF.fin (Real.exp (x 0))⁻¹ * prop x) ∧
    Rejection.accepts ⟨target, prop, 1, 1⟩ ![0] (1 / 2) = true ∧ Rejection.accepts ⟨target', prop', 1, 1⟩ (φ ![0]) (1 / 2) = true := by
  refine ⟨fun x => Real.exp_pos _, fun x => by simp, fun x => by simp, ?_, ?_⟩
  · simp only [Rejection.accepts, Rejection.ratio, XF.fin_mul, XF.fin_div]
    simp [XF.ltb]
    norm_num
  · simp only [Rejection.accepts, Rejection.ratio, XF.fin_mul, XF.fin_div]
    simp [XF.ltb]
    norm_num

/-! ### DM-AIS and layered AIS -/

section ais
variable {K : Type*} [Field K] [LinearOrder K] [IsStrictOrderedRing K] {d : ℕ}

/-- The sampler with all stored points in the other units. -/
def AIS.stretched (v : Fin d → K) (S : AIS K d) : AIS K d :=
  { S with centers := S.centers.map (v * ·), samples := S.samples.map (v * ·) }

variable {v : Fin d → K} (hv : ∀ i, 0 < v i) {r : K} (hr : 0 < r)

include hv hr in
theorem AIS.weigh_stretched {q q' : (Fin d → K) → (Fin d → K) → XF K} (hq : ∀ c x, q' (v * c) (v * x) = XF.fin r * q c x)
    (p : (Fin d → K) → XF K) (S : AIS K d) (x : Fin d → K) :
    (S.stretched v).weigh q' (fun x => XF.fin r * p (x / v)) (v * x) = S.weigh q p x := by
  unfold AIS.weigh AIS.prob AIS.stretched
  dsimp only
  rw [stretch_cancel hv, List.zipWith_map_left]
  have h : ∀ (l : List (Fin d → K)) (w : List (XF K)), List.zipWith (fun c w => q' (v * c) (v * x) * w) l w =
      (List.zipWith (fun c w => q c x * w) l w).map fun y => XF.fin r * y := by
    intro l w
    rw [List.map_zipWith]
    congr 1
    funext c w
    rw [hq, XF.scale_mul hr]
  rw [h, XF.scale_sum hr, XF.scale_cancel hr]

theorem AIS.batch_stretched (v : Fin d → K) (N k : ℕ) (pts : ℕ → ℕ → Fin d → K) :
    AIS.batch N k (fun i j => v * pts i j) = (AIS.batch N k pts).map (v * ·) := by
  unfold AIS.batch
  rw [List.map_flatMap]
  simp only [List.map_map]
  rfl

theorem DM.resample_stretched (v : Fin d → K) (bern : ℕ → ℕ → K → Bool) (xs : List (Fin d → K)) (ws : List (XF K)) (hl : ws.length = xs.length)
    (S : AIS K d) :
    DM.resample bern (xs.map (v * ·)) ws (S.stretched v) = ((DM.resample bern xs ws S).1.stretched v, (DM.resample bern xs ws S).2) := by
  unfold DM.resample
  cases hp : DM.pvals (ws.map fun w => w / ws.sum) with
  | error e => rfl
  | ok ps =>
    have hps : ps ≠ [] ∧ ps.length = xs.length := by
      unfold DM.pvals at hp
      cases hf : finites (ws.map fun w => w / ws.sum) with
      | none => rw [hf] at hp; cases hp
      | some ps' =>
        rw [hf] at hp
        dsimp only at hp
        split at hp
        · rename_i h
          cases hp
          refine ⟨h.1, ?_⟩
          have := finites_len _ hf
          rw [this, List.length_map, hl]
        · cases hp
    simp only [AIS.stretched, List.length_map, List.map_map]
    congr 2
    apply List.map_congr_left
    intro i _
    have hm : (multinomial1 (bern i) ps).length = ps.length := PMC.multinomialGo_length _ _ _ _
    have hlt : argmaxNat (multinomial1 (bern i) ps) < xs.length := by
      have := PMC.argmaxNat_lt (multinomial1 (bern i) ps) (by
        intro h
        rw [h] at hm
        exact hps.1 (List.length_eq_zero_iff.1 hm.symm))
      omega
    simp [List.getElem?_eq_getElem hlt]

theorem AIS.reset_stretched (v : Fin d → K) {N : ℕ} {lo hi : Fin d → K} {u : ℕ → Fin d → K} {S S' : AIS K d}
    (hS : AIS.reset N lo hi u = .ok S) (hS' : AIS.reset N (v * lo) (v * hi) u = .ok S') : S' = S.stretched v := by
  by_cases hN : N = 0
  · subst hN
    simp [AIS.reset] at hS
  · rw [AIS.reset_ok N (Nat.pos_of_ne_zero hN)] at hS hS'
    cases hS
    cases hS'
    unfold AIS.stretched
    dsimp only
    rw [List.map_map]
    congr 1
    apply List.map_congr_left
    intro k _
    funext i
    simp only [Pi.mul_apply, Function.comp]
    ring

/-- The outcomes of an iteration with the drawn points in the other units. -/
def DM.Iter.stretched (v : Fin d → K) (it : DM.Iter K d) : DM.Iter K d := { it with pts := fun i j => v * it.pts i j }

include hv hr in
theorem DM.body_stretched (N k : ℕ) {q q' : (Fin d → K) → (Fin d → K) → XF K} (hq : ∀ c x, q' (v * c) (v * x) = XF.fin r * q c x)
    (p : (Fin d → K) → XF K) (it : DM.Iter K d) (S : AIS K d) :
    DM.body N k q' (fun x => XF.fin r * p (x / v)) (it.stretched v) (S.stretched v) =
      ((DM.body N k q p it S).1.stretched v, (DM.body N k q p it S).2) := by
  unfold DM.body DM.Iter.stretched
  dsimp only
  rw [AIS.batch_stretched, List.length_map]
  split
  · rfl
  · generalize AIS.batch N k it.pts = xs
    have hS : ({ S.stretched v with numQ := (S.stretched v).numQ + N * k } : AIS K d) = AIS.stretched v { S with numQ := S.numQ + N * k } := rfl
    rw [hS]
    generalize ({ S with numQ := S.numQ + N * k } : AIS K d) = S1
    have hw : (xs.map (v * ·)).map ((S1.stretched v).weigh q' fun x => XF.fin r * p (x / v)) = xs.map (S1.weigh q p) := by
      rw [List.map_map]
      exact List.map_congr_left fun x _ => AIS.weigh_stretched hv hr hq p S1 x
    rw [hw]
    have hS2 : (⟨(S.stretched v).centers, (S.stretched v).modelWeights, (S.stretched v).samples, (S.stretched v).weights,
        (S.stretched v).numPi + xs.length, (S.stretched v).numQEval, (S.stretched v).numQ + N * k⟩ : AIS K d) =
      AIS.stretched v ⟨S.centers, S.modelWeights, S.samples, S.weights, S.numPi + xs.length, S.numQEval, S.numQ + N * k⟩ := rfl
    rw [hS2, DM.resample_stretched v _ _ _ (by simp)]
    generalize DM.resample it.bern xs (xs.map (S1.weigh q p)) _ = r
    obtain ⟨S2, e⟩ := r
    cases e with
    | some e => rfl
    | none => simp [AIS.stretched]

/-- **C157** for DM-AIS, from new samplers with the same random numbers. `q c x` is the density at `x` of the proposal at `c`, and
`q'` that of the proposals in the other units. -/
theorem C157_dm (v : Fin d → K) (hv : ∀ i, 0 < v i) (N k : ℕ) (q q' : (Fin d → K) → (Fin d → K) → XF K)
    (hq : ∀ c x, q' (v * c) (v * x) = XF.fin (∏ i, v i)⁻¹ * q c x) (p : (Fin d → K) → XF K) (lo hi : Fin d → K) (u : ℕ → Fin d → K)
    (S S' : AIS K d) (hS : AIS.reset N lo hi u = .ok S) (hS' : AIS.reset N (v * lo) (v * hi) u = .ok S')
    (calls : List (ℕ × Bool × List (DM.Iter K d))) :
    session (fun a => DM.importanceSample N k q' (fun x => XF.fin (∏ i, v i)⁻¹ * p (x / v)) a.1 a.2.1
          (a.2.2.map fun it : DM.Iter K d => { it with pts := fun i j => v * it.pts i j }))
        (fun S => (S.returned, S.centers, S.modelWeights, S.numPi, S.numQEval, S.numQ)) calls S' =
      session (fun a => DM.importanceSample N k q p a.1 a.2.1 a.2.2)
        (fun S => ((S.returned.1.map (v * ·), S.returned.2), S.centers.map (v * ·), S.modelWeights, S.numPi, S.numQEval, S.numQ)) calls S := by
  have hr : 0 < (∏ i, v i)⁻¹ := inv_pos.2 (Finset.prod_pos fun i _ => hv i)
  rw [AIS.reset_stretched v hS hS']
  have h := session_sim (fun a : ℕ × Bool × List (DM.Iter K d) => a) (AIS.stretched v)
    (fun S => ((S.returned.1.map (v * ·), S.returned.2), S.centers.map (v * ·), S.modelWeights, S.numPi, S.numQEval, S.numQ))
    (fun S => (S.returned, S.centers, S.modelWeights, S.numPi, S.numQEval, S.numQ)) (fun _ => rfl)
    (call := fun a => DM.importanceSample N k q p a.1 a.2.1 a.2.2)
    (call' := fun a => DM.importanceSample N k q' (fun x => XF.fin (∏ i, v i)⁻¹ * p (x / v)) a.1 a.2.1
          (a.2.2.map (DM.Iter.stretched v)))
    (fun a S => whileScript_view2 (DM.Iter.stretched v) (AIS.stretched v) (cond := fun S => decide (S.samples.length < a.1))
      (cond' := fun S => decide (S.samples.length < a.1)) (late := DM.Iter.late) (late' := DM.Iter.late)
      (fun S => by simp [AIS.stretched]) (fun _ => rfl)
      (fun it S => DM.body_stretched hv hr N k hq p it S) a.2.2 a.2.1 S) calls S
  rw [List.map_id'] at h
  exact h

include hv hr in
theorem LAIS.mcmcMh_stretched (lo hi : Fin d → K) (p : (Fin d → K) → XF K) (L : ℕ) (move : ℕ → Fin d → K) (alpha : ℕ → K) (x : Fin d → K) :
    LAIS.mcmcMh (v * lo) (v * hi) (fun x => XF.fin r * p (x / v)) L (fun l => v * move l) alpha (v * x) =
      v * LAIS.mcmcMh lo hi p L move alpha x := by
  unfold LAIS.mcmcMh
  have hs : ∀ l (x : Fin d → K), LAIS.mhStep (v * lo) (v * hi) (fun x => XF.fin r * p (x / v)) (v * move l) (alpha l) (v * x) =
      v * LAIS.mhStep lo hi p (move l) (alpha l) x := by
    intro l x
    unfold LAIS.mhStep
    dsimp only
    rw [← mul_add, clip_stretch hv]
    simp only [stretch_cancel hv, XF.scale_cancel hr]
    split <;> rfl
  generalize List.range L = ls
  induction ls generalizing x with
  | nil => rfl
  | cons l ls ih => rw [List.foldl_cons, List.foldl_cons, hs, ih]

/-- The outcomes of an iteration with the drawn points and the moves in the other units. -/
def LAIS.Iter.stretched (v : Fin d → K) (it : LAIS.Iter K d) : LAIS.Iter K d :=
  { it with pts := fun i j => v * it.pts i j, move := fun i l => v * it.move i l }

include hv hr in
theorem LAIS.body_stretched (N k L : ℕ) (lo hi : Fin d → K) {q q' : (Fin d → K) → (Fin d → K) → XF K}
    (hq : ∀ c x, q' (v * c) (v * x) = XF.fin r * q c x) (p : (Fin d → K) → XF K) (it : LAIS.Iter K d) (S : AIS K d) :
    LAIS.body N k L (v * lo) (v * hi) q' (fun x => XF.fin r * p (x / v)) (it.stretched v) (S.stretched v) =
      ((LAIS.body N k L lo hi q p it S).1.stretched v, (LAIS.body N k L lo hi q p it S).2) := by
  unfold LAIS.body LAIS.Iter.stretched
  dsimp only
  rw [AIS.batch_stretched, List.length_map]
  split
  · rfl
  · generalize AIS.batch N k it.pts = xs
    have hS : ({ S.stretched v with numQ := (S.stretched v).numQ + N * k } : AIS K d) = AIS.stretched v { S with numQ := S.numQ + N * k } := rfl
    rw [hS]
    generalize ({ S with numQ := S.numQ + N * k } : AIS K d) = S1
    have hw : (xs.map (v * ·)).map ((S1.stretched v).weigh q' fun x => XF.fin r * p (x / v)) = xs.map (S1.weigh q p) := by
      rw [List.map_map]
      exact List.map_congr_left fun x _ => AIS.weigh_stretched hv hr hq p S1 x
    rw [hw]
    unfold LAIS.resample
    simp only [AIS.stretched, List.length_map, List.map_append, Nested.mapIdx_of_map, LAIS.mcmcMh_stretched hv hr]
    congr 2
    apply List.ext_getElem
    · simp
    · intro i h1 h2
      simp

/-- **C157** for layered AIS, from new samplers with the same random numbers; the Metropolis moves are in the other units too. -/
theorem C157_lais (v : Fin d → K) (hv : ∀ i, 0 < v i) (N k L : ℕ) (q q' : (Fin d → K) → (Fin d → K) → XF K)
    (hq : ∀ c x, q' (v * c) (v * x) = XF.fin (∏ i, v i)⁻¹ * q c x) (p : (Fin d → K) → XF K) (lo hi : Fin d → K) (u : ℕ → Fin d → K)
    (S S' : AIS K d) (hS : AIS.reset N lo hi u = .ok S) (hS' : AIS.reset N (v * lo) (v * hi) u = .ok S')
    (calls : List (ℕ × Bool × List (LAIS.Iter K d))) :
    session (fun a => LAIS.importanceSample N k L (v * lo) (v * hi) q' (fun x => XF.fin (∏ i, v i)⁻¹ * p (x / v)) a.1 a.2.1
          (a.2.2.map fun it : LAIS.Iter K d => { it with pts := fun i j => v * it.pts i j, move := fun i l => v * it.move i l }))
        (fun S => (S.returned, S.centers, S.modelWeights, S.numPi, S.numQEval, S.numQ)) calls S' =
      session (fun a => LAIS.importanceSample N k L lo hi q p a.1 a.2.1 a.2.2)
        (fun S => ((S.returned.1.map (v * ·), S.returned.2), S.centers.map (v * ·), S.modelWeights, S.numPi, S.numQEval, S.numQ)) calls S := by
  have hr : 0 < (∏ i, v i)⁻¹ := inv_pos.2 (Finset.prod_pos fun i _ => hv i)
  rw [AIS.reset_stretched v hS hS']
  have h := session_sim (fun a : ℕ × Bool × List (LAIS.Iter K d) => a) (AIS.stretched v)
    (fun S => ((S.returned.1.map (v * ·), S.returned.2), S.centers.map (v * ·), S.modelWeights, S.numPi, S.numQEval, S.numQ))
    (fun S => (S.returned, S.centers, S.modelWeights, S.numPi, S.numQEval, S.numQ)) (fun _ => rfl)
    (call := fun a => LAIS.importanceSample N k L lo hi q p a.1 a.2.1 a.2.2)
    (call' := fun a => LAIS.importanceSample N k L (v * lo) (v * hi) q' (fun x => XF.fin (∏ i, v i)⁻¹ * p (x / v)) a.1 a.2.1
          (a.2.2.map (LAIS.Iter.stretched v)))
    (fun a S => whileScript_view2 (LAIS.Iter.stretched v) (AIS.stretched v) (cond := fun S => decide (S.samples.length < a.1))
      (cond' := fun S => decide (S.samples.length < a.1)) (late := LAIS.Iter.late) (late' := LAIS.Iter.late)
      (fun S => by simp [AIS.stretched]) (fun _ => rfl)
      (fun it S => LAIS.body_stretched hv hr N k L lo hi hq p it S) a.2.2 a.2.1 S) calls S
  rw [List.map_id'] at h
  exact h

end ais

/-- Proposals in two units that depend on the distance to the centre, and two samplers constructed from the same random numbers. -/
example : (∀ c x : Fin 1 → ℚ,
      let q := fun c x : Fin 1 → ℚ => XF.fin (1 / (1 + (x 0 - c 0) ^ 2))
      let q' := fun c x : Fin 1 → ℚ => XF.fin (10 / (100 + (x 0 - c 0) ^ 2))
      q' (![10] * c) (![10] * x) = XF.fin (∏ i, (![10] : Fin 1 → ℚ) i)⁻¹ * q c x) ∧
    (∃ S : AIS ℚ 1, AIS.reset 2 ![0] ![1] (fun k => ![(k : ℚ) / 2]) = .ok S ∧ S.centers = [![0], ![1/2]]) ∧
    ∃ S : AIS ℚ 1, AIS.reset 2 (![10] * ![0]) (![10] * ![1]) (fun k => ![(k : ℚ) / 2]) = .ok S ∧ S.centers = [![0], ![5]] := by
  refine ⟨fun c x => ?_, ?_, ?_⟩
  · simp only [Finset.univ_unique, Finset.prod_singleton, XF.fin_mul]
    congr 1
    have h : (0 : ℚ) < 1 + (x 0 - c 0) ^ 2 := by positivity
    have h2 : (0 : ℚ) < 100 + (10 * x 0 - 10 * c 0) ^ 2 := by positivity
    show (10 : ℚ) / (100 + (10 * x 0 - 10 * c 0) ^ 2) = 10⁻¹ * (1 / (1 + (x 0 - c 0) ^ 2))
    field_simp
    ring
  · cases hr : AIS.reset (K := ℚ) (d := 1) 2 ![0] ![1] (fun k => ![(k : ℚ) / 2]) with
    | error e => simp [AIS.reset, setWeights] at hr
    | ok S =>
      refine ⟨S, rfl, ?_⟩
      simp [AIS.reset, setWeights] at hr
      rw [← hr]
      simp [List.range_succ]
      constructor <;> (funext i; fin_cases i; norm_num)
  · cases hr : AIS.reset (K := ℚ) (d := 1) 2 (![10] * ![0]) (![10] * ![1]) (fun k => ![(k : ℚ) / 2]) with
    | error e => simp [AIS.reset, setWeights] at hr
    | ok S =>
      refine ⟨S, rfl, ?_⟩
      simp [AIS.reset, setWeights] at hr
      rw [← hr]
      simp [List.range_succ]
      constructor <;> (funext i; fin_cases i; norm_num)

/-- The hypothesis of `C157_mh`: units of two axes. -/
example : ∀ i, 0 < (![1000, 1 / 60] : Fin 2 → ℝ) i := by
  intro i
  fin_cases i <;> simp

end Verif
