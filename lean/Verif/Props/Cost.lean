import Verif.Proof.Cost
import Verif.Model.Rejection
import Verif.Model.AIS
import Verif.Props.MPMCRun
import Verif.Model.MultiNested
import Verif.Model.HiDaisee
import Mathlib.Data.Fin.VecNotation

/-!
# C139: no sampler looks at the target more often than it reports

All samplers but the tree pyramid.
-/

set_option linter.unusedSectionVars false
set_option autoImplicit false

namespace Verif

namespace Rejection
variable {d : ℕ}

theorem body_pays (c : Cfg d) (n : ℕ) (it : Iter d) (S : Rej d) :
    Pays c.target S.numPi (fun r => r.1.numPi) (fun t => body { c with target := t } n it S) := by
  refine Pays.points ((List.range (n - S.samples.length)).map it.pts) ?_ ?_
  · intro p' hp
    have e : ∀ j ∈ List.range (n - S.samples.length), ratio { c with target := p' } (it.pts j) = ratio c (it.pts j) := by
      intro j hj
      simp only [ratio, hp _ (List.mem_map_of_mem hj)]
    have e2 : (List.range (n - S.samples.length)).filter (fun j => accepts { c with target := p' } (it.pts j) (it.u j)) =
        (List.range (n - S.samples.length)).filter fun j => accepts c (it.pts j) (it.u j) := by
      apply List.filter_congr
      intro j hj
      simp only [accepts, e j hj]
    simp only [body]
    rw [e2]
    refine congrArg (fun w => (({ S with
      numQ := S.numQ + n, numPi := S.numPi + n, numQEval := S.numQEval + n, drawn := S.drawn + (n - S.samples.length),
      samples := _, weights := S.weights ++ w } : Rej d), (none : Option PyErr))) (List.map_congr_left fun j hj => ?_)
    exact e j (List.mem_filter.1 hj).1
  · simp [body]

/-- What `importance_sample` does after the loop. -/
noncomputable def finish (nKde : ℕ) (idx : ℕ → ℕ) : Out (Rej d) → Out (Rej d)
  | .running S => .running S
  | .raised e S => .raised e S
  | .done S =>
    match MHast.updateModel nKde idx S.samples with
    | .error e => .raised e { S with weights := List.replicate S.weights.length (XF.fin (1 / (S.weights.length : ℝ))) }
    | .ok m => .done { S with
        weights := List.replicate S.weights.length (XF.fin (1 / (S.weights.length : ℝ))), kde := some m }

theorem finish_numPi (nKde : ℕ) (idx : ℕ → ℕ) (o : Out (Rej d)) : (finish nKde idx o).state.numPi = o.state.numPi := by
  cases o with
  | running S => rfl
  | raised e S => rfl
  | done S =>
    simp only [finish]
    cases MHast.updateModel nKde idx S.samples <;> rfl

/-- **C139** (rejection sampling) Whatever the object has done before and however the call ends, its outcome (the state
of the object included) depends on at most as many values of the target as the call adds to the reported number of target
evaluations. -/
theorem C139_partial (c : Cfg d) (n : ℕ) (expired : Bool) (script : List (Iter d)) (idx : ℕ → ℕ) (S : Rej d) :
    S.numPi ≤ (importanceSample c n expired script idx S).state.numPi ∧
    LooksAt (fun t => importanceSample { c with target := t } n expired script idx S) c.target
      ((importanceSample c n expired script idx S).state.numPi - S.numPi) := by
  have h : Pays c.target S.numPi (fun o : Out (Rej d) => o.state.numPi) (fun t => finish c.nKde idx
      (whileScript (fun S => decide (S.samples.length < n)) Iter.late (body { c with target := t } n) expired script S)) :=
    Pays.comp (cost := fun o : Out (Rej d) => o.state.numPi)
      (pays_whileScript (cost := Rej.numPi) (body := fun t => body { c with target := t } n)
        (fun it s => body_pays c n it s) script expired S) (finish_numPi _ _ _).ge
  have e : ∀ t, finish c.nKde idx (whileScript (fun S => decide (S.samples.length < n)) Iter.late
      (body { c with target := t } n) expired script S) = importanceSample { c with target := t } n expired script idx S := by
    intro t
    unfold importanceSample finish
    cases whileScript (fun S => decide (S.samples.length < n)) Iter.late (body { c with target := t } n) expired script S with
    | running S => rfl
    | raised e S => rfl
    | done S => rfl
  simp only [e] at h
  exact ⟨h.le, h.looksAt⟩

end Rejection

namespace AIS
variable {K : Type*} [Field K] [LinearOrder K] {d : ℕ}

theorem weigh_congr (q : (Fin d → K) → (Fin d → K) → XF K) (S : AIS K d) {p p' : (Fin d → K) → XF K}
    {xs : List (Fin d → K)} (h : ∀ x ∈ xs, p' x = p x) : xs.map (S.weigh q p') = xs.map (S.weigh q p) :=
  List.map_congr_left fun x hx => by simp only [weigh, h x hx]

end AIS

namespace DM
variable {K : Type*} [Field K] [LinearOrder K] {d : ℕ}

theorem body_pays (N k : ℕ) (q : (Fin d → K) → (Fin d → K) → XF K) (target : (Fin d → K) → XF K) (it : Iter K d)
    (S : AIS K d) : Pays target S.numPi (fun r => r.1.numPi) (fun t => body N k q t it S) := by
  by_cases h1 : (AIS.batch N k it.pts).length = 1
  · simp only [body, h1, if_true]
    exact Pays.const (le_refl _)
  · refine Pays.points (AIS.batch N k it.pts) ?_ ?_
    · intro p' hp
      simp only [body, h1, if_false]
      rw [AIS.weigh_congr q _ hp]
    · simp only [body, h1, if_false, resample]
      split
      · rename_i heq
        split at heq <;> simp only [Prod.mk.injEq] at heq <;> simp [← heq.1]
      · rename_i heq
        split at heq <;> simp only [Prod.mk.injEq] at heq <;> simp [← heq.1]

/-- **C139** (DM-AIS) -/
theorem C139_partial (N k : ℕ) (q : (Fin d → K) → (Fin d → K) → XF K) (target : (Fin d → K) → XF K) (n : ℕ)
    (expired : Bool) (script : List (Iter K d)) (S : AIS K d) :
    S.numPi ≤ (importanceSample N k q target n expired script S).state.numPi ∧
    LooksAt (fun t => importanceSample N k q t n expired script S) target
      ((importanceSample N k q target n expired script S).state.numPi - S.numPi) := by
  have h := pays_whileScript (cost := AIS.numPi) (cond := fun S => decide (S.samples.length < n)) (late := Iter.late)
    (body := fun t => body N k q t) (p := target) (fun it s => body_pays N k q target it s) script expired S
  exact ⟨h.le, h.looksAt⟩

end DM

namespace LAIS
variable {K : Type*} [Field K] [LinearOrder K] {d : ℕ}

/-- The points at which one Metropolis chain looks. -/
def places (lo hi : Fin d → K) (target : (Fin d → K) → XF K) (move : ℕ → Fin d → K) (alpha : ℕ → K) (x : Fin d → K)
    (L : ℕ) : List (Fin d → K) :=
  (List.range L).flatMap fun l =>
    [clip lo hi (mcmcMh lo hi target l move alpha x + move l), mcmcMh lo hi target l move alpha x]

theorem length_places (lo hi : Fin d → K) (target : (Fin d → K) → XF K) (move : ℕ → Fin d → K) (alpha : ℕ → K)
    (x : Fin d → K) (L : ℕ) : (places lo hi target move alpha x L).length = 2 * L := by
  simp [places, Nat.mul_comm]

theorem mcmcMh_congr (lo hi : Fin d → K) {p p' : (Fin d → K) → XF K} (move : ℕ → Fin d → K) (alpha : ℕ → K)
    (x : Fin d → K) : ∀ (L : ℕ), (∀ y ∈ places lo hi p move alpha x L, p' y = p y) →
    mcmcMh lo hi p' L move alpha x = mcmcMh lo hi p L move alpha x
  | 0, _ => rfl
  | L + 1, h => by
    have ih := mcmcMh_congr lo hi move alpha x L fun y hy => h y (by
      unfold places at hy ⊢
      rw [List.range_succ, List.flatMap_append]
      exact List.mem_append_left _ hy)
    have e : ∀ t : (Fin d → K) → XF K, mcmcMh lo hi t (L + 1) move alpha x =
        mhStep lo hi t (move L) (alpha L) (mcmcMh lo hi t L move alpha x) := by
      intro t
      simp [mcmcMh, List.range_succ]
    rw [e, e, ih]
    unfold mhStep
    have hm : ∀ y ∈ [clip lo hi (mcmcMh lo hi p L move alpha x + move L), mcmcMh lo hi p L move alpha x], p' y = p y := by
      intro y hy
      apply h
      unfold places
      rw [List.range_succ, List.flatMap_append]
      exact List.mem_append_right _ (by simpa using hy)
    simp only [hm _ (List.mem_cons_self ..), hm _ (List.mem_cons_of_mem _ (List.mem_cons_self ..))]

theorem length_flatMap_const {α β : Type*} (f : α → List β) (k : ℕ) (h : ∀ a, (f a).length = k) : ∀ (l : List α),
    (l.flatMap f).length = l.length * k
  | [] => by simp
  | a :: l => by
    rw [List.flatMap_cons, List.length_append, h, length_flatMap_const f k h l, List.length_cons, Nat.succ_mul,
      Nat.add_comm]

theorem body_pays (N k L : ℕ) (lo hi : Fin d → K) (q : (Fin d → K) → (Fin d → K) → XF K) (target : (Fin d → K) → XF K)
    (it : Iter K d) (S : AIS K d) : Pays target S.numPi (fun r => r.1.numPi) (fun t => body N k L lo hi q t it S) := by
  by_cases h1 : (AIS.batch N k it.pts).length = 1
  · simp only [body, h1, if_true]
    exact Pays.const (le_refl _)
  · refine Pays.points (AIS.batch N k it.pts ++ S.centers.zipIdx.flatMap fun a =>
      places lo hi target (it.move a.2) (it.alpha a.2) a.1 L) ?_ ?_
    · intro p' hp
      simp only [body, h1, if_false, resample]
      rw [AIS.weigh_congr q _ fun x hx => hp x (List.mem_append_left _ hx)]
      have : S.centers.mapIdx (fun i c => mcmcMh lo hi p' L (it.move i) (it.alpha i) c) =
          S.centers.mapIdx fun i c => mcmcMh lo hi target L (it.move i) (it.alpha i) c := by
        rw [List.mapIdx_eq_zipIdx_map, List.mapIdx_eq_zipIdx_map]
        refine List.map_congr_left fun a ha => ?_
        exact mcmcMh_congr lo hi _ _ _ L fun y hy => hp y (List.mem_append_right _ (List.mem_flatMap.2 ⟨a, ha, hy⟩))
      rw [this]
    · simp only [body, h1, if_false, resample, List.length_append]
      rw [length_flatMap_const _ (2 * L) (fun a => length_places ..), List.length_zipIdx]
      omega

/-- **C139** (layered AIS) -/
theorem C139_partial (N k L : ℕ) (lo hi : Fin d → K) (q : (Fin d → K) → (Fin d → K) → XF K)
    (target : (Fin d → K) → XF K) (n : ℕ) (expired : Bool) (script : List (Iter K d)) (S : AIS K d) :
    S.numPi ≤ (importanceSample N k L lo hi q target n expired script S).state.numPi ∧
    LooksAt (fun t => importanceSample N k L lo hi q t n expired script S) target
      ((importanceSample N k L lo hi q target n expired script S).state.numPi - S.numPi) := by
  have h := pays_whileScript (cost := AIS.numPi) (cond := fun S => decide (S.samples.length < n)) (late := Iter.late)
    (body := fun t => body N k L lo hi q t) (p := target) (fun it s => body_pays N k L lo hi q target it s) script expired S
  exact ⟨h.le, h.looksAt⟩

/-- One iteration with two proposals and one Metropolis step each: two samples are weighed, and each step looks at two
points. -/
example : (importanceSample 2 1 1 ![0] ![1] (fun _ _ => XF.fin 1) (fun x : Fin 1 → ℚ => XF.fin (x 0)) 2 false
    [⟨fun i _ => ![((i : ℚ) + 1) / 4], fun _ _ => ![1 / 8], fun _ _ => 1 / 2, false⟩]
    ⟨[![1 / 4], ![1 / 2]], [XF.fin (1 / 2), XF.fin (1 / 2)], [], [], 0, 0, 0⟩).state.numPi = 6 := by decide +kernel

end LAIS

namespace PMC
variable {d N : ℕ}

theorem body_pays (k : ℕ) (target : (Fin d → XF ℝ) → XF ℝ) (it : Iter d) (S : PMC d N) :
    Pays target S.numPi (fun r => r.1.numPi) (fun t => body k t it S) := by
  cases hm : mixtureSample N S.modelWeights it.bern (draw { S with numQ := S.numQ + k } it) k with
  | error e =>
    have : ∀ t, body k t it S = ({ S with numQ := S.numQ + k }, some e) := by
      intro t
      simp only [body, hm]
    simp only [this]
    exact Pays.const (le_refl _)
  | ok new =>
    have hl := mixtureSample_length _ _ _ _ _ _ hm
    refine Pays.points new ?_ ?_
    · intro p' hp
      have e : ∀ x ∈ new, rawWeight p' { S with numQ := S.numQ + k } x = rawWeight target { S with numQ := S.numQ + k } x := by
        intro x hx
        simp only [rawWeight, hp x hx]
      have e2 : rowsOf p' { S with numQ := S.numQ + k } new = rowsOf target { S with numQ := S.numQ + k } new := by
        unfold rowsOf
        rw [List.map_congr_left e]
        exact List.map_congr_left fun x hx => by rw [e x hx]
      simp only [body, hm, e2]
    · simp only [body, hm]
      have hk := (adapt_keeps (rowsOf target { S with numQ := S.numQ + k } new)
        { S with numQ := S.numQ + k, numPi := S.numPi + k, numQEval := S.numQEval + k * (1 + N) }).2.2.1
      rcases ha : adapt (rowsOf target { S with numQ := S.numQ + k } new)
        { S with numQ := S.numQ + k, numPi := S.numPi + k, numQEval := S.numQEval + k * (1 + N) } with ⟨S', _ | e⟩ <;>
      · rw [ha] at hk
        simp only at hk ⊢
        omega

/-- **C139** (M-PMC) -/
theorem C139_partial (k : ℕ) (target : (Fin d → XF ℝ) → XF ℝ) (n : ℕ) (expired : Bool) (script : List (Iter d))
    (S : PMC d N) :
    S.numPi ≤ (importanceSample k target n expired script S).state.numPi ∧
    LooksAt (fun t => importanceSample k t n expired script S) target
      ((importanceSample k target n expired script S).state.numPi - S.numPi) := by
  have h := pays_whileScript (cost := PMC.numPi) (cond := fun S : PMC d N => decide (S.samples.length < n))
    (late := Iter.late) (body := fun t => body k t) (p := target) (fun it s => body_pays k target it s) script expired S
  exact ⟨h.le, h.looksAt⟩

end PMC

namespace MHast
variable {d : ℕ}

theorem tryBody_pays (c : Cfg d) (x : Fin d → ℝ) (t : Try d) (p : MH d × (Fin d → ℝ) × Bool) :
    Pays c.target p.1.numPi (fun r => r.1.1.numPi) (fun f => tryBody { c with target := f } x t p) := by
  refine Pays.points [propose c x t.z, x] ?_ ?_
  · intro p' hp
    have e : ∀ f, propose { c with target := f } x t.z = propose c x t.z := fun _ => rfl
    simp only [tryBody, accepts, alpha, e, hp x (by simp), hp (propose c x t.z) (by simp)]
  · simp [tryBody]

theorem relabel_numPi {l : Label} {S S' : MH d} (h : relabel l S = some S') : S'.numPi = S.numPi := by
  unfold relabel at h
  split at h
  · cases h
  · simp only [Option.some.injEq] at h
    rw [← h]

theorem mcmcStep_pays (c : Cfg d) (x : Fin d → ℝ) (env : StepEnv d) (S : MH d) :
    Pays c.target S.numPi (fun o : Out (MH d × (Fin d → ℝ)) => o.state.1.numPi)
      (fun f => mcmcStep { c with target := f } x env S) := by
  unfold mcmcStep
  refine Pays.after (cost := fun o : Out (MH d × (Fin d → ℝ) × Bool) => o.state.1.numPi) (g := fun o => match o with
    | .running p => Out.running (p.1, p.2.1)
    | .raised e p => .raised e (p.1, p.2.1)
    | .done p =>
      match relabel .accept p.1 with
      | none => .raised .index (p.1, p.2.1)
      | some S' => .done (S', p.2.1))
    (pays_whileScript (cost := fun p : MH d × (Fin d → ℝ) × Bool => p.1.numPi)
      (body := fun f => tryBody { c with target := f } x) (fun it s => tryBody_pays c x it s) env.tries env.closed
      (S, x, false)) ?_
  intro o
  rcases o with p | ⟨e, p⟩ | p
  · simp only
    split
    · exact le_refl _
    · rename_i h
      exact (relabel_numPi h).ge
  · exact le_refl _
  · exact le_refl _

theorem advance_pays (c : Cfg d) (l : Label) (env : StepEnv d) (S : MH d) :
    Pays c.target S.numPi (fun o : Out (MH d) => o.state.numPi) (fun f => advance { c with target := f } l env S) := by
  unfold advance
  refine Pays.after (cost := fun o : Out (MH d × (Fin d → ℝ)) => o.state.1.numPi) (g := fun o => match o with
    | .running p => Out.running p.1
    | .raised e p => .raised e p.1
    | .done p =>
      let S' := { p.1 with cur := p.2 }
      match relabel l S' with
      | none => .raised .index S'
      | some S'' => .done S'') (mcmcStep_pays c S.cur env S) ?_
  intro o
  rcases o with p | ⟨e, p⟩ | p
  · simp only
    split
    · exact le_refl _
    · rename_i h
      exact (relabel_numPi h).ge
  · exact le_refl _
  · exact le_refl _

theorem mcmcIter_pays (c : Cfg d) (env : ℕ → StepEnv d) (p : MH d × List (Fin d → ℝ)) :
    Pays c.target p.1.numPi (fun o : Out (MH d × List (Fin d → ℝ)) => o.state.1.numPi)
      (fun f => mcmcIter { c with target := f } env p) := by
  unfold mcmcIter
  refine Pays.after (cost := fun o : Out (MH d) => o.state.numPi) (g := fun o => match o with
    | .running S => Out.running (S, p.2)
    | .raised e S => .raised e (S, p.2)
    | .done S =>
      match relabel .sample S with
      | none => .raised .index (S, p.2)
      | some S' => .done (S', p.2 ++ [S'.cur]))
    (pays_forN (cost := MH.numPi) (f := fun f j S => advance { c with target := f } .decorrelation (env j) S)
      (fun i s => advance_pays c _ (env i) s) c.nSteps p.1) ?_
  intro o
  rcases o with p | ⟨e, p⟩ | p
  · simp only
    split
    · exact le_refl _
    · rename_i h
      exact (relabel_numPi h).ge
  · exact le_refl _
  · exact le_refl _

theorem sampleIter_pays (c : Cfg d) (n : ℕ) (env : ℕ → ℕ → StepEnv d) (p : MH d × List (Fin d → ℝ)) :
    Pays c.target p.1.numPi (fun o : Out (MH d × List (Fin d → ℝ)) => o.state.1.numPi)
      (fun f => sampleIter { c with target := f } n env p) := by
  unfold sampleIter mcmc
  refine Pays.after (cost := fun o : Out (MH d × List (Fin d → ℝ)) => o.state.1.numPi) (g := fun o => match o with
    | .running r => Out.running (r.1, p.2)
    | .raised e r => .raised e (r.1, p.2)
    | .done r => .done (r.1, p.2 ++ r.2))
    (pays_forN (cost := fun r : MH d × List (Fin d → ℝ) => r.1.numPi)
      (f := fun f i r => mcmcIter { c with target := f } (env i) r)
      (fun i s => mcmcIter_pays c (env i) s) n (p.1, [])) ?_
  intro o
  rcases o with p | ⟨e, p⟩ | p <;> exact le_refl _

theorem burnIn_pays (c : Cfg d) (burn : ℕ → List (Try d)) (S : MH d) :
    Pays c.target S.numPi (fun o : Out (MH d) => o.state.numPi) (fun f => burnIn { c with target := f } burn S) := by
  unfold burnIn
  cases hi : S.isInit with
  | true =>
    simp only [if_true]
    exact Pays.const (le_refl _)
  | false =>
    simp only [Bool.false_eq_true, if_false]
    refine Pays.after (cost := fun o : Out (MH d) => o.state.numPi) (g := fun o => match o with
      | .running S => Out.running S
      | .raised e S => .raised e S
      | .done S => .done { S with isInit := true })
      (pays_forN (cost := MH.numPi) (f := fun f j S => advance { c with target := f } .burnIn ⟨false, burn j⟩ S)
        (fun i s => advance_pays c _ _ s) c.nBurnin S) ?_
    intro o
    rcases o with p | ⟨e, p⟩ | p <;> exact le_refl _

theorem sample_pays (c : Cfg d) (n : ℕ) (burn : ℕ → List (Try d)) (env : ℕ → ℕ → ℕ → StepEnv d) (S : MH d) :
    Pays c.target S.numPi (fun o : Out (MH d × List (Fin d → ℝ)) => o.state.1.numPi)
      (fun f => sample { c with target := f } n burn env S) := by
  unfold sample
  refine Pays.bind (cost := fun o : Out (MH d) => o.state.numPi) (g := fun f o => match o with
    | .running S => Out.running (S, [])
    | .raised e S => .raised e (S, [])
    | .done S => forN (fun i p => sampleIter { c with target := f } n (env i) p) n (S, []))
    (burnIn_pays c burn S) ?_
  cases burnIn { c with target := c.target } burn S with
  | running S => exact Pays.const (le_refl _)
  | raised e S => exact Pays.const (le_refl _)
  | done S =>
    exact pays_forN (cost := fun r : MH d × List (Fin d → ℝ) => r.1.numPi)
      (f := fun f i r => sampleIter { c with target := f } n (env i) r)
      (fun i s => sampleIter_pays c n (env i) s) n (S, [])

theorem body_pays (c : Cfg d) (it : Iter d) (S : MH d) :
    Pays c.target S.numPi (fun o : Out (MH d) => o.state.numPi) (fun f => body { c with target := f } it S) := by
  unfold body
  refine Pays.after (cost := fun o : Out (MH d × List (Fin d → ℝ)) => o.state.1.numPi) (g := fun o => match o with
    | .running p => Out.running p.1
    | .raised e p => .raised e p.1
    | .done p => .done { p.1 with samples := p.1.samples ++ p.2 })
    (sample_pays c 1 it.burn it.env S) ?_
  intro o
  rcases o with p | ⟨e, p⟩ | p <;> exact le_refl _

/-- **C139** (Metropolis-Hastings) -/
theorem C139_partial (c : Cfg d) (n : ℕ) (expired : Bool) (script : List (Iter d)) (idx : ℕ → ℕ) (S : MH d) :
    S.numPi ≤ (importanceSample c n expired script idx S).state.numPi ∧
    LooksAt (fun t => importanceSample { c with target := t } n expired script idx S) c.target
      ((importanceSample c n expired script idx S).state.numPi - S.numPi) := by
  have h : Pays c.target S.numPi (fun o : Out (MH d) => o.state.numPi)
      (fun t => importanceSample { c with target := t } n expired script idx S) := by
    unfold importanceSample
    refine Pays.after (cost := fun o : Out (MH d) => o.state.numPi) (g := fun o => match o with
      | .running S => Out.running S
      | .raised e S => .raised e S
      | .done S =>
        let S := { S with weights := List.replicate S.samples.length (XF.fin (1 / (S.samples.length : ℝ))) }
        match updateModel c.nKde idx S.samples with
        | .error e => .raised e S
        | .ok m => .done { S with kde := some m })
      (pays_whileOut (cost := MH.numPi) (body := fun f => body { c with target := f })
        (fun it s => body_pays c it s) script expired S) ?_
    intro o
    rcases o with p | ⟨e, p⟩ | p
    · simp only
      split <;> exact le_refl _
    · exact le_refl _
    · exact le_refl _
  exact ⟨h.le, h.looksAt⟩

end MHast

namespace Nested
variable {d : ℕ}

theorem resample_pays (c : Cfg d) (x : Fin d → ℝ) (value : ℝ) (e : Env d) (S : Nest d) :
    Pays c.target S.numPi (fun o : Out (Nest d × (Fin d → ℝ) × ℝ) => o.state.1.numPi)
      (fun f => resample { c with target := f } x value e S) := by
  unfold resample
  refine Pays.bind (f := fun f => (count S, clip c.lo c.hi (e.z0 + x), f (clip c.lo c.hi (e.z0 + x))))
    (cost := fun p : Nest d × (Fin d → ℝ) × ℝ => p.1.numPi)
    (g := fun f p => whileScript (fun p => decide (p.2.2 < value)) Try.late
      (fun t p => ((count p.1, t.z + x, f (t.z + x)), none)) e.expired e.tries p) ?_ ?_
  · exact Pays.points [clip c.lo c.hi (e.z0 + x)] (fun p' hp => by rw [hp _ (by simp)]) (by simp [count])
  · exact pays_whileScript (cost := fun p : Nest d × (Fin d → ℝ) × ℝ => p.1.numPi)
      (body := fun f t p => ((count p.1, t.z + x, f (t.z + x)), none))
      (fun it s => Pays.points [it.z + x] (fun p' hp => by rw [hp _ (by simp)]) (by simp [count])) e.tries e.expired _

theorem addSample_numPi (k : ℕ) (S : Nest d) : (addSample k S).numPi = S.numPi := by
  unfold addSample
  split <;> rfl

theorem step_pays (c : Cfg d) (e : Env d) (p : Nest d × List ℝ) :
    Pays c.target p.1.numPi (fun o : Out (Nest d × List ℝ) => o.state.1.numPi)
      (fun f => step { c with target := f } e p) := by
  obtain ⟨S, vs⟩ := p
  cases vs with
  | nil => exact Pays.const (le_refl _)
  | cons v vs =>
    unfold step
    simp only
    rw [← addSample_numPi ((v :: vs).idxOf (minOf v vs)) S]
    refine Pays.after (cost := fun o : Out (Nest d × (Fin d → ℝ) × ℝ) => o.state.1.numPi) (g := fun o => match o with
      | .running p => Out.running (p.1, v :: vs)
      | .raised err p => .raised err (p.1, v :: vs)
      | .done p => .done ({ p.1 with live := p.1.live.set ((v :: vs).idxOf (minOf v vs)) p.2.1 },
          (v :: vs).set ((v :: vs).idxOf (minOf v vs)) p.2.2))
      (resample_pays c _ _ e { addSample ((v :: vs).idxOf (minOf v vs)) S with
        L := (addSample ((v :: vs).idxOf (minOf v vs)) S).L ++ [minOf v vs] }) ?_
    intro o
    rcases o with p | ⟨e, p⟩ | p <;> exact le_refl _

/-- **C139** (nested sampling) -/
theorem C139_partial (c : Cfg d) (n : ℕ) (env : ℕ → Env d) (idx : ℕ → ℕ) (S : Nest d) :
    S.numPi ≤ (importanceSample c n env idx S).state.numPi ∧
    LooksAt (fun t => importanceSample { c with target := t } n env idx S) c.target
      ((importanceSample c n env idx S).state.numPi - S.numPi) := by
  have h : Pays c.target S.numPi (fun o : Out (Nest d) => o.state.numPi)
      (fun t => importanceSample { c with target := t } n env idx S) := by
    unfold importanceSample
    refine Pays.bind (f := fun f => (({ S with numPi := S.numPi + S.live.length } : Nest d), S.live.map f))
      (cost := fun p : Nest d × List ℝ => p.1.numPi)
      (g := fun f p => match forN (fun i => step { c with target := f } (env i)) (n - S.samples.length) p with
        | .running p => Out.running p.1
        | .raised e p => .raised e p.1
        | .done p =>
          if p.1.samples = [] then .raised .index p.1
          else
            let S := { p.1 with weights := finalWeights c.N p.1.L }
            match MHast.updateModel c.nKde idx S.samples with
            | .error e => .raised e S
            | .ok m => .done { S with kde := some m }) ?_ ?_
    · exact Pays.points S.live (fun p' hp => by rw [List.map_congr_left hp]) (le_refl _)
    · refine Pays.after (cost := fun o : Out (Nest d × List ℝ) => o.state.1.numPi) (g := fun o => match o with
        | .running p => Out.running p.1
        | .raised e p => .raised e p.1
        | .done p =>
          if p.1.samples = [] then .raised .index p.1
          else
            let S := { p.1 with weights := finalWeights c.N p.1.L }
            match MHast.updateModel c.nKde idx S.samples with
            | .error e => .raised e S
            | .ok m => .done { S with kde := some m })
        (pays_forN (cost := fun p : Nest d × List ℝ => p.1.numPi) (f := fun f i => step { c with target := f } (env i))
          (fun i s => step_pays c (env i) s) (n - S.samples.length) _) ?_
      intro o
      rcases o with p | ⟨e, p⟩ | p
      · simp only
        split
        · exact le_refl _
        · split <;> exact le_refl _
      · exact le_refl _
      · exact le_refl _
  exact ⟨h.le, h.looksAt⟩

end Nested

namespace MultiNested
open Nested
variable {d : ℕ}

theorem resample_pays (c : Cfg d) (el : Ell d) (value : ℝ) (e : Env d) (S : Nest d) :
    Pays c.target S.numPi (fun o : Out (Nest d × (Fin d → ℝ) × ℝ) => o.state.1.numPi)
      (fun f => resample { c with target := f } el value e S) := by
  unfold resample
  refine Pays.bind (f := fun f => (count S, clip c.lo c.hi e.y0, f (clip c.lo c.hi e.y0)))
    (cost := fun p : Nest d × (Fin d → ℝ) × ℝ => p.1.numPi)
    (g := fun f p => whileScript (fun p => decide (p.2.2 < value) && decide (c.radius ^ d < el.vol)) Try.late
      (fun t p => ((count p.1, t.y, f t.y), none)) e.expired e.tries p) ?_ ?_
  · exact Pays.points [clip c.lo c.hi e.y0] (fun p' hp => by rw [hp _ (by simp)]) (by simp [count])
  · exact pays_whileScript (cost := fun p : Nest d × (Fin d → ℝ) × ℝ => p.1.numPi)
      (body := fun f t p => ((count p.1, t.y, f t.y), none))
      (fun it s => Pays.points [it.y] (fun p' hp => by rw [hp _ (by simp)]) (by simp [count])) e.tries e.expired _

theorem step_pays (c : Cfg d) (el : Ell d) (e : Env d) (p : Nest d × List ℝ) :
    Pays c.target p.1.numPi (fun o : Out (Nest d × List ℝ) => o.state.1.numPi)
      (fun f => step { c with target := f } el e p) := by
  unfold step
  cases hv : el.idx.map fun i => p.2.getD i 0 with
  | nil => exact Pays.const (le_refl _)
  | cons v vs =>
    simp only
    rw [← addSample_numPi (el.idx.getD ((v :: vs).idxOf (minOf v vs)) 0) p.1]
    refine Pays.after (cost := fun o : Out (Nest d × (Fin d → ℝ) × ℝ) => o.state.1.numPi) (g := fun o => match o with
      | .running q => Out.running (q.1, p.2)
      | .raised err q => .raised err (q.1, p.2)
      | .done q => .done ({ q.1 with live := q.1.live.set (el.idx.getD ((v :: vs).idxOf (minOf v vs)) 0) q.2.1 },
          p.2.set (el.idx.getD ((v :: vs).idxOf (minOf v vs)) 0) q.2.2))
      (resample_pays c el _ e { addSample (el.idx.getD ((v :: vs).idxOf (minOf v vs)) 0) p.1 with
        L := (addSample (el.idx.getD ((v :: vs).idxOf (minOf v vs)) 0) p.1).L ++ [minOf v vs] }) ?_
    intro o
    rcases o with p | ⟨e, p⟩ | p <;> exact le_refl _

theorem fitAll_anyTarget (c : Cfg d) (km : ℕ → ℕ → ℕ) (pts : List (Fin d → ℝ)) (t : (Fin d → ℝ) → ℝ) (k : ℕ) : ∀ (i : ℕ),
    fitAll { c with target := t } km pts k i = fitAll c km pts k i
  | 0 => rfl
  | i + 1 => by
    unfold fitAll
    rw [fitAll_anyTarget c km pts t k i]

theorem clustering_anyTarget (c : Cfg d) (km : ℕ → ℕ → ℕ) (pts : List (Fin d → ℝ)) (t : (Fin d → ℝ) → ℝ) :
    ∀ (fuel : ℕ) (ells : List (Ell d)), clustering { c with target := t } km pts fuel ells = clustering c km pts fuel ells
  | 0, _ => rfl
  | fuel + 1, ells => by
    unfold clustering
    simp only [fitAll_anyTarget c km pts t, clustering_anyTarget c km pts t fuel]

theorem recursiveClustering_anyTarget (c : Cfg d) (km : ℕ → ℕ → ℕ) (fuel : ℕ) (pts : List (Fin d → ℝ))
    (t : (Fin d → ℝ) → ℝ) :
    recursiveClustering { c with target := t } km fuel pts = recursiveClustering c km fuel pts := by
  unfold recursiveClustering
  simp only [clustering_anyTarget c km pts t]

/-- **C139** (multi-nested sampling) -/
theorem C139_partial (c : Cfg d) (n : ℕ) (km : ℕ → ℕ → ℕ) (fuel : ℕ) (env : ℕ → Env d) (idx : ℕ → ℕ) (S : Nest d) :
    S.numPi ≤ (importanceSample c n km fuel env idx S).state.numPi ∧
    LooksAt (fun t => importanceSample { c with target := t } n km fuel env idx S) c.target
      ((importanceSample c n km fuel env idx S).state.numPi - S.numPi) := by
  have h : Pays c.target S.numPi (fun o : Out (Nest d) => o.state.numPi)
      (fun t => importanceSample { c with target := t } n km fuel env idx S) := by
    have hr : ∀ t, recursiveClustering { c with target := t } km fuel S.live = recursiveClustering c km fuel S.live :=
      fun t => recursiveClustering_anyTarget c km fuel S.live t
    unfold importanceSample
    simp only [hr]
    cases recursiveClustering c km fuel S.live with
    | none => exact Pays.const (Nat.le_add_right _ _)
    | some r =>
      cases r with
      | error e => exact Pays.const (Nat.le_add_right _ _)
      | ok ells =>
        simp only
        generalize perEll n S.samples.length ells.length = m
        refine Pays.bind (f := fun f => (({ S with numPi := S.numPi + S.live.length } : Nest d), S.live.map f))
          (cost := fun p : Nest d × List ℝ => p.1.numPi)
          (g := fun f p => match forN (fun i => step { c with target := f } (ells.getD (i / m) ⟨0, 0, []⟩) (env i))
              (ells.length * m) p with
            | .running p => Out.running p.1
            | .raised e p => .raised e p.1
            | .done p =>
              if p.1.samples = [] then .raised .index p.1
              else
                let S := { p.1 with weights := finalWeights c.N p.1.L }
                match MHast.updateModel c.nKde idx S.samples with
                | .error e => .raised e S
                | .ok m => .done { S with kde := some m }) ?_ ?_
        · exact Pays.points S.live (fun p' hp => by rw [List.map_congr_left hp]) (le_refl _)
        · refine Pays.after (cost := fun o : Out (Nest d × List ℝ) => o.state.1.numPi) (g := fun o => match o with
            | .running p => Out.running p.1
            | .raised e p => .raised e p.1
            | .done p =>
              if p.1.samples = [] then .raised .index p.1
              else
                let S := { p.1 with weights := finalWeights c.N p.1.L }
                match MHast.updateModel c.nKde idx S.samples with
                | .error e => .raised e S
                | .ok m => .done { S with kde := some m })
            (pays_forN (cost := fun p : Nest d × List ℝ => p.1.numPi)
              (f := fun f i => step { c with target := f } (ells.getD (i / m) ⟨0, 0, []⟩) (env i))
              (fun i s => step_pays c _ (env i) s) (ells.length * m) _) ?_
          intro o
          rcases o with p | ⟨e, p⟩ | p
          · simp only
            split
            · exact le_refl _
            · split <;> exact le_refl _
          · exact le_refl _
          · exact le_refl _
  exact ⟨h.le, h.looksAt⟩

end MultiNested

namespace HiD
variable {K : Type*} [Field K] [LinearOrder K] {d : ℕ}

theorem foldlM_congr_mem {α β : Type*} {f g : β → α → Except PyErr β} : ∀ (l : List α) (b : β),
    (∀ a ∈ l, ∀ b, f b a = g b a) → l.foldlM f b = l.foldlM g b
  | [], _, _ => rfl
  | a :: l, b, h => by
    simp only [List.foldlM_cons, h a (by simp) b]
    cases g b a with
    | error => rfl
    | ok b' => exact foldlM_congr_mem l b' fun x hx => h x (by simp [hx])

theorem push_congr {p p' : Pt K d → XF K} (j : Fin d) (lr : Node K d × Node K d) {x : Pt K d} (h : p' x = p x) :
    push p' j lr x = push p j lr x := by
  unfold push
  rw [h]

theorem split_congr {T : Tree K d} {id : ℕ} {n : Node K d} (hn : T.nodes[id]? = some n) {j : Fin d} {p p' : Pt K d → XF K}
    (h : ∀ x ∈ n.samples.getD [], p' x = p x) : T.split id j p' = T.split id j p := by
  have e : n.samples.elim (Except.error PyErr.type) (fun xs => xs.foldlM (push p' j) (children n j)) =
      n.samples.elim (Except.error PyErr.type) (fun xs => xs.foldlM (push p j) (children n j)) := by
    cases hs : n.samples with
    | none => rfl
    | some xs =>
      rw [hs] at h
      exact foldlM_congr_mem xs _ fun x hx lr => push_congr j lr (h x hx)
  unfold Tree.split
  cases hs : n.samples with
  | none => simp only [hn, hs]
  | some xs =>
    simp only [hs, Option.elim_some] at e
    simp only [hn, hs, e]

theorem refreshQ_samples (nodes : List (Node K d)) (p i : ℕ) :
    ((refreshQ nodes p)[i]?).map Node.samples = (nodes[i]?).map Node.samples := by
  unfold refreshQ
  rw [List.getElem?_modify]
  split
  · cases nodes[i]? <;> rfl
  · cases nodes[i]? <;> rfl

theorem foldl_refreshQ_samples (i : ℕ) : ∀ (P : List ℕ) (nodes : List (Node K d)),
    ((P.foldl refreshQ nodes)[i]?).map Node.samples = (nodes[i]?).map Node.samples
  | [], _ => rfl
  | p :: P, nodes => by rw [List.foldl_cons, foldl_refreshQ_samples i P, refreshQ_samples]

theorem iterate_pays (c : Cfg K) (target : Pt K d → XF K) (t : ℕ) (it : Iter K d) (T : Tree K d) (a : ℕ) :
    PaysOk target a (fun r => a + r.2) (fun f => iterate c f t it T) := by
  cases hs : T.select it.rs T.nodes.length 0 [0] 0 with
  | error e =>
    have : ∀ f, iterate c f t it T = .error e := fun f => by simp only [iterate, hs]
    simp only [this]
    exact PaysOk.const (by simp)
  | ok r =>
    obtain ⟨P, id⟩ := r
    cases hn : T.nodes[id]? with
    | none =>
      have : ∀ f, iterate c f t it T = .error .index := fun f => by simp only [iterate, hs, hn]
      simp only [this]
      exact PaysOk.const (by simp)
    | some n =>
      have hid : id < T.nodes.length := (List.getElem?_eq_some_iff.1 hn).1
      set x := n.sampler.sample1 it.u with hx
      by_cases hp : XF.ltb (XF.fin 0) (n.sampler.prob1 x) = false
      · have : ∀ f, iterate c f t it T = .error .assertion := fun f => by simp only [iterate, hs, hn, ← hx, hp, if_true]
        simp only [this]
        exact PaysOk.const (by simp)
      · -- the node after the new sample
        set n1 := n.addSample x (target x / n.sampler.prob1 x) with h1
        set n2 : Node K d := { n1 with q := (n1.mean + c.boost t n1.N) / totalEv c t ⟨T.nodes.set id n1, T.leaves⟩ } with h2
        set T2 : Tree K d := ⟨P.dropLast.reverse.foldl refreshQ (T.nodes.set id n2), T.leaves⟩ with hT2
        have e : iterate c target t it T =
            if c.nMin ≤ n2.N ∧ XF.ltb n2.ess (XF.fin (c.essTarget * n2.N)) = true then
              (T2.split id it.j target).map fun T3 => (T3, 1 + n2.N)
            else .ok (T2, 1) := by
          simp only [iterate, hs, hn, ← hx, hp, if_false, ← h1, ← h2, ← hT2]
          rfl
        have e' : ∀ f : Pt K d → XF K, f x = target x → iterate c f t it T =
            if c.nMin ≤ n2.N ∧ XF.ltb n2.ess (XF.fin (c.essTarget * n2.N)) = true then
              (T2.split id it.j f).map fun T3 => (T3, 1 + n2.N)
            else .ok (T2, 1) := by
          intro f hf
          simp only [iterate, hs, hn, ← hx, hp, if_false, hf, ← h1, ← h2, ← hT2]
          rfl
        have hsm : ∃ m, T2.nodes[id]? = some m ∧ m.samples = n2.samples := by
          have h0 := foldl_refreshQ_samples id P.dropLast.reverse (T.nodes.set id n2)
          rw [List.getElem?_set_self hid] at h0
          have h3 : T2.nodes[id]? = (P.dropLast.reverse.foldl refreshQ (T.nodes.set id n2))[id]? := rfl
          cases hm : T2.nodes[id]? with
          | none => rw [← h3, hm] at h0; simp at h0
          | some m =>
            rw [← h3, hm] at h0
            exact ⟨m, rfl, by simpa using h0⟩
        obtain ⟨m, hm, hms⟩ := hsm
        have hN : (n2.samples.getD []).length = n2.N := rfl
        by_cases hc : c.nMin ≤ n2.N ∧ XF.ltb n2.ess (XF.fin (c.essTarget * n2.N)) = true
        · refine PaysOk.points (x :: n2.samples.getD []) ?_ ?_
          · intro p' hp'
            rw [e' p' (hp' x (by simp)), e, split_congr hm fun y hy => hp' y (by rw [hms] at hy; exact List.mem_cons_of_mem _ hy)]
          · intro r hr
            rw [e, if_pos hc] at hr
            cases hsp : T2.split id it.j target with
            | error => simp [hsp, Except.map] at hr
            | ok T3 =>
              simp only [hsp, Except.map, Except.ok.injEq] at hr
              rw [← hr]
              simp only [List.length_cons, hN]
              omega
        · refine PaysOk.points [x] ?_ ?_
          · intro p' hp'
            rw [e' p' (hp' x (by simp)), e, if_neg hc, if_neg hc]
          · intro r hr
            rw [e, if_neg hc] at hr
            simp only [Except.ok.injEq] at hr
            rw [← hr]
            simp

theorem iterations_pays (c : Cfg K) (target : Pt K d → XF K) : ∀ (its : List (Iter K d)) (t : ℕ) (S : Sampler K d),
    PaysOk target S.numPi Sampler.numPi (fun f => iterations c f t its S)
  | [], t, S => PaysOk.const (by rintro r h; simp only [iterations, Except.ok.injEq] at h; rw [h])
  | it :: its, t, S => by
    have e : ∀ f, iterations c f t (it :: its) S = (iterate c f t it S.T).bind fun r =>
        iterations c f (t + 1) its { S with T := r.1, numQ := S.numQ + 1, numPi := S.numPi + r.2, numQEval := S.numQEval + r.2 } := by
      intro f
      conv_lhs => unfold iterations
      cases iterate c f t it S.T <;> rfl
    simp only [e]
    exact PaysOk.bind (iterate_pays c target t it S.T S.numPi) fun r hr => iterations_pays c target its (t + 1) _

/-- **C139** (HiDaisee) -/
theorem C139_partial (c : Cfg K) (target : Pt K d → XF K) (n : ℕ) (its : ℕ → Iter K d) {S S' : Sampler K d}
    (h : importanceSample c target n its S = .ok S') :
    S.numPi ≤ S'.numPi ∧ LooksAt (fun t => importanceSample c t n its S) target (S'.numPi - S.numPi) := by
  have hp : PaysOk target S.numPi Sampler.numPi (fun t => importanceSample c t n its S) := by
    have e : ∀ t, importanceSample c t n its S =
        (iterations c t S.samples.length ((List.range (n - S.samples.length)).map its) S).bind fun S =>
          (updateModel S).map getSamples := by
      intro t
      unfold importanceSample
      cases iterations c t S.samples.length ((List.range (n - S.samples.length)).map its) S <;> rfl
    simp only [e]
    refine PaysOk.bind (iterations_pays c target _ _ S) fun r _ => PaysOk.const ?_
    intro r' hr'
    unfold updateModel at hr'
    cases hw : setWeights r.T.leafNodes.length (r.T.leafNodes.map Node.mean) with
    | error => simp [hw, Except.map] at hr'
    | ok w =>
      simp only [hw, Except.map, Except.ok.injEq] at hr'
      rw [← hr']
      exact le_refl _
  exact ⟨hp.le h, hp.looksAt h⟩

end HiD

end Verif
