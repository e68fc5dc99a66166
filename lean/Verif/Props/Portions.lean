import Verif.Props.Shift
import Verif.Props.HiDaisee
import Verif.Props.MPMCRun
import Verif.Props.MHRun

/-!
# C154: asking in portions equals asking at once

A first call for `n₁` samples, then a call for `n₂ ≥ n₁` samples, compared with one call for `n₂` samples that is given the same
random outcomes. The time limit is not reached during the first call. (Nested sampling: C87.)
-/

set_option linter.unusedSectionVars false
set_option autoImplicit false

namespace Verif

/-! ### Specification -/

/-- A call uses all the outcomes in `script`: with fewer of them it is still running. -/
def UsesAll {σ ι : Type*} (call : List ι → σ → Out σ) (script : List ι) (S : σ) : Prop :=
  ∀ p, p <+: script → p ≠ script → ∃ T, call p S = .running T

theorem UsesAll.single {σ ι : Type*} {call : List ι → σ → Out σ} {it : ι} {S T : σ} (h : call [] S = .running T) :
    UsesAll call [it] S := by
  intro p hp hne
  cases p with
  | nil => exact ⟨T, h⟩
  | cons a p =>
    obtain ⟨h1, h2⟩ := List.cons_prefix_cons.1 hp
    rw [h1, List.prefix_nil.1 h2] at hne
    exact absurd rfl hne

/-! ### Loops -/

section loops
variable {σ ι : Type*} {c₁ c₂ : σ → Bool} {late : ι → Bool}

theorem UsesAll.tail {call call' : List ι → σ → Out σ} {it : ι} {rest : List ι} {S S' : σ} (h : UsesAll call (it :: rest) S)
    (hc : ∀ p, call (it :: p) S = call' p S') : UsesAll call' rest S' := by
  intro p hp hne
  obtain ⟨T, hT⟩ := h (it :: p) (List.cons_prefix_cons.2 ⟨rfl, hp⟩) (by simpa using hne)
  exact ⟨T, by rw [← hc, hT]⟩

theorem whileScript_portions {body : ι → σ → σ × Option PyErr} (hm : ∀ s, c₁ s = true → c₂ s = true) (s₂ : List ι) :
    ∀ (s₁ : List ι) {S S₁ : σ}, (∀ it ∈ s₁, late it = false) → whileScript c₁ late body false s₁ S = .done S₁ →
      UsesAll (whileScript c₁ late body false) s₁ S →
      whileScript c₂ late body false (s₁ ++ s₂) S = whileScript c₂ late body false s₂ S₁
  | [], S, S₁, _, h1, _ => by
    rw [whileScript] at h1
    split at h1
    · cases h1
    · cases h1
      rfl
  | it :: rest, S, S₁, hl, h1, hu => by
    obtain ⟨T, hT⟩ := hu [] List.nil_prefix (by simp)
    have hc : c₁ S = true := by
      rw [whileScript] at hT
      by_cases h : c₁ S = true
      · exact h
      · simp [h] at hT
    have ht : (c₁ S && !false) = true := by simp [hc]
    have ht2 : (c₂ S && !false) = true := by simp [hm S hc]
    have hli := hl it List.mem_cons_self
    rw [List.cons_append, whileScript, if_pos ht2]
    rw [whileScript, if_pos ht] at h1
    cases hb : body it S with
    | mk S' e =>
      rw [hb] at h1
      cases e with
      | some e => cases h1
      | none =>
        dsimp only at h1 ⊢
        rw [hli] at h1 ⊢
        refine whileScript_portions hm s₂ rest (fun i hi => hl i (List.mem_cons_of_mem _ hi)) h1 (hu.tail fun p => ?_)
        rw [whileScript, if_pos ht, hb]
        dsimp only
        rw [hli]

theorem whileOut_portions {body : ι → σ → Out σ} (hm : ∀ s, c₁ s = true → c₂ s = true) (s₂ : List ι) :
    ∀ (s₁ : List ι) {S S₁ : σ}, (∀ it ∈ s₁, late it = false) → whileOut c₁ late body false s₁ S = .done S₁ →
      UsesAll (whileOut c₁ late body false) s₁ S →
      whileOut c₂ late body false (s₁ ++ s₂) S = whileOut c₂ late body false s₂ S₁
  | [], S, S₁, _, h1, _ => by
    rw [whileOut] at h1
    split at h1
    · cases h1
    · cases h1
      rfl
  | it :: rest, S, S₁, hl, h1, hu => by
    obtain ⟨T, hT⟩ := hu [] List.nil_prefix (by simp)
    have hc : c₁ S = true := by
      rw [whileOut] at hT
      by_cases h : c₁ S = true
      · exact h
      · simp [h] at hT
    have ht : (c₁ S && !false) = true := by simp [hc]
    have ht2 : (c₂ S && !false) = true := by simp [hm S hc]
    have hli := hl it List.mem_cons_self
    rw [List.cons_append, whileOut, if_pos ht2]
    rw [whileOut, if_pos ht] at h1
    cases hb : body it S with
    | raised e S' => rw [hb] at h1; cases h1
    | running S' => rw [hb] at h1; cases h1
    | done S' =>
      rw [hb] at h1
      dsimp only at h1 ⊢
      rw [hli] at h1 ⊢
      refine whileOut_portions hm s₂ rest (fun i hi => hl i (List.mem_cons_of_mem _ hi)) h1 (hu.tail fun p => ?_)
      rw [whileOut, if_pos ht, hb]
      dsimp only
      rw [hli]

end loops

theorem lt_portions {n₁ n₂ k : ℕ} (h : n₁ ≤ n₂) (hk : decide (k < n₁) = true) : decide (k < n₂) = true := by
  simp only [decide_eq_true_eq] at hk ⊢
  omega

/-! ### DM-AIS, layered AIS, M-PMC -/

section pop
variable {K : Type*} [Field K] [LinearOrder K] {d : ℕ}

/-- **C154** (DM-AIS). The two calls in a row end like the single call, in every case (also an exception or an unfinished second
call), with the same object. -/
theorem C154_dm (N k : ℕ) (q : (Fin d → K) → (Fin d → K) → XF K) (target : (Fin d → K) → XF K) {n₁ n₂ : ℕ} (hn : n₁ ≤ n₂)
    (s₁ s₂ : List (DM.Iter K d)) {S S₁ : AIS K d} (hl : ∀ it ∈ s₁, it.late = false)
    (h1 : DM.importanceSample N k q target n₁ false s₁ S = .done S₁)
    (hu : UsesAll (DM.importanceSample N k q target n₁ false) s₁ S) :
    DM.importanceSample N k q target n₂ false s₂ S₁ = DM.importanceSample N k q target n₂ false (s₁ ++ s₂) S :=
  (whileScript_portions (c₂ := fun S : AIS K d => decide (S.samples.length < n₂)) (fun _ h => lt_portions hn h) s₂ s₁ hl h1 hu).symm

/-- **C154** (layered AIS). -/
theorem C154_lais (N k L : ℕ) (lo hi : Fin d → K) (q : (Fin d → K) → (Fin d → K) → XF K) (target : (Fin d → K) → XF K)
    {n₁ n₂ : ℕ} (hn : n₁ ≤ n₂) (s₁ s₂ : List (LAIS.Iter K d)) {S S₁ : AIS K d} (hl : ∀ it ∈ s₁, it.late = false)
    (h1 : LAIS.importanceSample N k L lo hi q target n₁ false s₁ S = .done S₁)
    (hu : UsesAll (LAIS.importanceSample N k L lo hi q target n₁ false) s₁ S) :
    LAIS.importanceSample N k L lo hi q target n₂ false s₂ S₁ =
      LAIS.importanceSample N k L lo hi q target n₂ false (s₁ ++ s₂) S :=
  (whileScript_portions (c₂ := fun S : AIS K d => decide (S.samples.length < n₂)) (fun _ h => lt_portions hn h) s₂ s₁ hl h1 hu).symm

/-- **C154** (M-PMC). -/
theorem C154_mpmc {N : ℕ} (k : ℕ) (target : (Fin d → XF ℝ) → XF ℝ) {n₁ n₂ : ℕ} (hn : n₁ ≤ n₂) (s₁ s₂ : List (PMC.Iter d))
    {S S₁ : PMC d N} (hl : ∀ it ∈ s₁, it.late = false) (h1 : PMC.importanceSample k target n₁ false s₁ S = .done S₁)
    (hu : UsesAll (PMC.importanceSample k target n₁ false) s₁ S) :
    PMC.importanceSample k target n₂ false s₂ S₁ = PMC.importanceSample k target n₂ false (s₁ ++ s₂) S :=
  (whileScript_portions (c₂ := fun S : PMC d N => decide (S.samples.length < n₂)) (fun _ h => lt_portions hn h) s₂ s₁ hl h1 hu).symm

end pop

-- DM-AIS: two proposals with two points each; the request for three samples uses one iteration
example : let it : DM.Iter ℚ 1 := ⟨fun i j => ![(i : ℚ) + j / 2], fun _ _ _ => true, false⟩
    let S : AIS ℚ 1 := ⟨[![0], ![1]], [XF.fin (1 / 2), XF.fin (1 / 2)], [], [], 0, 0, 0⟩
    UsesAll (DM.importanceSample 2 2 (fun _ _ => XF.fin 1) (fun x => XF.fin (1 + x 0)) 3 false) [it] S ∧
    ∃ S₁, DM.importanceSample 2 2 (fun _ _ => XF.fin 1) (fun x => XF.fin (1 + x 0)) 3 false [it] S = .done S₁ ∧
      S₁.samples = [![0], ![1 / 2], ![1], ![3 / 2]] := by
  intro it S
  refine ⟨.single (T := S) rfl, ?_⟩
  have h : (match DM.importanceSample 2 2 (fun _ _ => XF.fin 1) (fun x => XF.fin (1 + x 0)) 3 false [it] S with
    | .done S₁ => decide (S₁.samples = [![0], ![1 / 2], ![1], ![3 / 2]])
    | _ => false) = true := by decide +kernel
  split at h
  · rename_i S₁ hS
    exact ⟨S₁, hS, of_decide_eq_true h⟩
  · cases h

-- layered AIS: the same points
example : let it : LAIS.Iter ℚ 1 := ⟨fun i j => ![(i : ℚ) + j / 2], fun _ _ => ![1 / 4], fun _ _ => 1 / 2, false⟩
    let S : AIS ℚ 1 := ⟨[![0], ![1]], [XF.fin (1 / 2), XF.fin (1 / 2)], [], [], 0, 0, 0⟩
    UsesAll (LAIS.importanceSample 2 2 1 ![0] ![2] (fun _ _ => XF.fin 1) (fun x => XF.fin (1 + x 0)) 3 false) [it] S ∧
    ∃ S₁, LAIS.importanceSample 2 2 1 ![0] ![2] (fun _ _ => XF.fin 1) (fun x => XF.fin (1 + x 0)) 3 false [it] S = .done S₁ ∧
      S₁.samples = [![0], ![1 / 2], ![1], ![3 / 2]] ∧ S₁.centers = [![1 / 4], ![5 / 4]] := by
  intro it S
  refine ⟨.single (T := S) rfl, ?_⟩
  have h : (match LAIS.importanceSample 2 2 1 ![0] ![2] (fun _ _ => XF.fin 1) (fun x => XF.fin (1 + x 0)) 3 false [it] S with
    | .done S₁ => decide (S₁.samples = [![0], ![1 / 2], ![1], ![3 / 2]] ∧ S₁.centers = [![1 / 4], ![5 / 4]])
    | _ => false) = true := by decide +kernel
  split at h
  · rename_i S₁ hS
    exact ⟨S₁, hS, of_decide_eq_true h⟩
  · cases h

-- M-PMC: one component, two different points per iteration
example : ∃ S S₁ : PMC 1 1, UsesAll (PMC.importanceSample 2 (fun _ => .fin 0) 2 false) [PMC.exIter] S ∧
    PMC.importanceSample 2 (fun _ => .fin 0) 2 false [PMC.exIter] S = .done S₁ ∧ S₁.samples.length = 2 := by
  obtain ⟨S, hS⟩ := PMC.reset_ok (d := 1) (N := 1) one_pos 1 one_pos 0 1 0
  obtain ⟨hg, hs, -⟩ := PMC.reset_good one_pos 2 1 0 1 0 S hS
  obtain ⟨e1, -, l1, -⟩ := PMC.body_one_dim S hg (fun _ => .fin 0) (fun _ => Or.inr ⟨0, rfl⟩) PMC.exIter (by simp [PMC.exIter])
  have hl : (PMC.body 2 (fun _ => .fin 0) PMC.exIter S).1.samples.length = 2 := by rw [l1, hs]; rfl
  refine ⟨S, (PMC.body 2 (fun _ => .fin 0) PMC.exIter S).1, .single (T := S) ?_, ?_, hl⟩
  · simp [PMC.importanceSample, whileScript, hs]
  · cases hb : PMC.body 2 (fun _ => .fin 0) PMC.exIter S with
    | mk S' e =>
      rw [hb] at e1 hl
      obtain rfl : e = none := e1
      dsimp only at hl
      simp [PMC.importanceSample, whileScript, hs, hb, hl]

/-! ### Metropolis-Hastings -/

namespace MHast
variable {d : ℕ}

/-- The object with other weights and another kernel density estimate. -/
def told (w : List (XF ℝ)) (m : Option (List (Fin d → ℝ))) (S : MH d) : MH d := { S with weights := w, kde := m }

/-- An object with other weights, and points collected. -/
def told2 (w : List (XF ℝ)) (m : Option (List (Fin d → ℝ))) (p : MH d × List (Fin d → ℝ)) : MH d × List (Fin d → ℝ) :=
  (told w m p.1, p.2)

variable (w : List (XF ℝ)) (m : Option (List (Fin d → ℝ)))

theorem relabel_told (l : Label) (S : MH d) : relabel l (told w m S) = (relabel l S).map (told w m) := by
  unfold relabel
  show (if S.trajT = [] then _ else _) = _
  split <;> rfl

theorem mcmcStep_told (c : Cfg d) (x : Fin d → ℝ) (env : StepEnv d) (S : MH d) :
    mcmcStep c x env (told w m S) = (mcmcStep c x env S).view fun p => (told w m p.1, p.2) := by
  unfold mcmcStep
  have h := whileScript_view (fun p : MH d × (Fin d → ℝ) × Bool => (told w m p.1, p.2.1, p.2.2)) (cond := fun p => !p.2.2)
    (cond' := fun p => !p.2.2) (late := Try.late) (body := tryBody c x) (body' := tryBody c x) (fun _ => rfl)
    (fun t p => rfl) env.tries env.closed (S, x, false)
  dsimp only at h
  rw [h]
  cases whileScript (fun p => !p.2.2) Try.late (tryBody c x) env.closed env.tries (S, x, false) with
  | running p => rfl
  | raised e p => rfl
  | done p =>
    dsimp only [Out.view]
    rw [relabel_told]
    cases relabel .accept p.1 <;> rfl

theorem advance_told (c : Cfg d) (l : Label) (env : StepEnv d) (S : MH d) :
    advance c l env (told w m S) = (advance c l env S).view (told w m) := by
  unfold advance
  have hc : (told w m S).cur = S.cur := rfl
  rw [hc, mcmcStep_told]
  cases mcmcStep c S.cur env S with
  | running p => rfl
  | raised e p => rfl
  | done p =>
    have h : ({ told w m p.1 with cur := p.2 } : MH d) = told w m { p.1 with cur := p.2 } := rfl
    dsimp only [Out.view]
    rw [h, relabel_told]
    cases relabel l { p.1 with cur := p.2 } <;> rfl

theorem mcmcIter_told (c : Cfg d) (env : ℕ → StepEnv d) (p : MH d × List (Fin d → ℝ)) :
    mcmcIter c env (told2 w m p) = (mcmcIter c env p).view (told2 w m) := by
  unfold mcmcIter
  have h := forN_view (told w m) (g := fun j S => advance c .decorrelation (env j) S)
    (g' := fun j S => advance c .decorrelation (env j) S) (fun j S => advance_told w m c _ (env j) S) c.nSteps p.1
  have e : (told2 w m p).1 = told w m p.1 := rfl
  rw [e, h]
  cases forN (fun j S => advance c .decorrelation (env j) S) c.nSteps p.1 with
  | running S => rfl
  | raised e S => rfl
  | done S =>
    dsimp only [Out.view]
    rw [relabel_told]
    cases relabel .sample S <;> rfl

theorem mcmc_told (c : Cfg d) (n : ℕ) (env : ℕ → ℕ → StepEnv d) (S : MH d) :
    mcmc c n env (told w m S) = (mcmc c n env S).view (told2 w m) :=
  forN_view (told2 w m) (g := fun i p => mcmcIter c (env i) p) (g' := fun i p => mcmcIter c (env i) p)
    (fun i p => mcmcIter_told w m c (env i) p) n (S, [])

theorem burnIn_told (c : Cfg d) (burn : ℕ → List (Try d)) (S : MH d) :
    burnIn c burn (told w m S) = (burnIn c burn S).view (told w m) := by
  unfold burnIn
  have h := forN_view (told w m) (g := fun j S => advance c .burnIn ⟨false, burn j⟩ S)
    (g' := fun j S => advance c .burnIn ⟨false, burn j⟩ S) (fun j S => advance_told w m c _ _ S) c.nBurnin S
  have e : (told w m S).isInit = S.isInit := rfl
  rw [e, h]
  split
  · rfl
  · cases forN (fun j S => advance c .burnIn ⟨false, burn j⟩ S) c.nBurnin S <;> rfl

theorem sample_told (c : Cfg d) (n : ℕ) (burn : ℕ → List (Try d)) (env : ℕ → ℕ → ℕ → StepEnv d) (S : MH d) :
    sample c n burn env (told w m S) = (sample c n burn env S).view (told2 w m) := by
  unfold sample
  rw [burnIn_told]
  cases burnIn c burn S with
  | running S => rfl
  | raised e S => rfl
  | done S =>
    refine forN_view (told2 w m) (g := fun i p => sampleIter c n (env i) p) (g' := fun i p => sampleIter c n (env i) p) ?_ n (S, [])
    intro i p
    unfold sampleIter
    have e : (told2 w m p).1 = told w m p.1 := rfl
    rw [e, mcmc_told]
    cases mcmc c n (env i) p.1 <;> rfl

theorem body_told (c : Cfg d) (it : Iter d) (S : MH d) : body c it (told w m S) = (body c it S).view (told w m) := by
  unfold body
  rw [sample_told]
  cases sample c 1 it.burn it.env S <;> rfl

/-- The end of `importance_sample`. -/
noncomputable def finish (c : Cfg d) (idx : ℕ → ℕ) : Out (MH d) → Out (MH d)
  | .running S => .running S
  | .raised e S => .raised e S
  | .done S =>
    match updateModel c.nKde idx S.samples with
    | .error e => .raised e { S with weights := List.replicate S.samples.length (XF.fin (1 / (S.samples.length : ℝ))) }
    | .ok m => .done { S with weights := List.replicate S.samples.length (XF.fin (1 / (S.samples.length : ℝ))), kde := some m }

theorem importanceSample_eq (c : Cfg d) (n : ℕ) (ex : Bool) (script : List (Iter d)) (idx : ℕ → ℕ) (S : MH d) :
    importanceSample c n ex script idx S =
      finish c idx (whileOut (fun S => decide (S.samples.length < n)) Iter.late (body c) ex script S) := by
  unfold importanceSample finish
  cases whileOut (fun S : MH d => decide (S.samples.length < n)) Iter.late (body c) ex script S with
  | running S => rfl
  | raised e S => rfl
  | done S =>
    dsimp only
    cases updateModel c.nKde idx S.samples <;> rfl

/-- **C154** (Metropolis-Hastings). When the second call returns, so does the single call, with the same object: samples, weights,
kernel density estimate, chain, log of the chain and counters. -/
theorem C154_mh (c : Cfg d) {n₁ n₂ : ℕ} (hn : n₁ ≤ n₂) (s₁ s₂ : List (Iter d)) (idx₁ idx₂ : ℕ → ℕ) {S S₁ S₂ : MH d}
    (hl : ∀ it ∈ s₁, it.late = false) (h1 : importanceSample c n₁ false s₁ idx₁ S = .done S₁)
    (hu : UsesAll (fun s => importanceSample c n₁ false s idx₁) s₁ S)
    (h2 : importanceSample c n₂ false s₂ idx₂ S₁ = .done S₂) :
    importanceSample c n₂ false (s₁ ++ s₂) idx₂ S = .done S₂ := by
  rw [importanceSample_eq] at h1 h2 ⊢
  have hu' : UsesAll (whileOut (fun S : MH d => decide (S.samples.length < n₁)) Iter.late (body c) false) s₁ S := by
    intro p hp hne
    obtain ⟨T, hT⟩ := hu p hp hne
    dsimp only at hT
    rw [importanceSample_eq] at hT
    generalize whileOut (fun S : MH d => decide (S.samples.length < n₁)) Iter.late (body c) false p S = o at hT ⊢
    cases o with
    | running T => exact ⟨T, rfl⟩
    | raised e T => cases hT
    | done T =>
      unfold finish at hT
      dsimp only at hT
      split at hT <;> cases hT
  cases hw : whileOut (fun S : MH d => decide (S.samples.length < n₁)) Iter.late (body c) false s₁ S with
  | running T => rw [hw] at h1; cases h1
  | raised e T => rw [hw] at h1; cases h1
  | done T =>
    rw [hw] at h1
    rw [whileOut_portions (c₂ := fun S : MH d => decide (S.samples.length < n₂)) (fun _ h => lt_portions hn h) s₂ s₁ hl hw hu']
    obtain ⟨w, m, rfl⟩ : ∃ w m, S₁ = told w m T := by
      unfold finish at h1
      dsimp only at h1
      split at h1
      · cases h1
      · cases h1
        exact ⟨_, _, rfl⟩
    rw [whileOut_view (told w m) (cond := fun S : MH d => decide (S.samples.length < n₂))
      (cond' := fun S : MH d => decide (S.samples.length < n₂)) (fun _ => rfl) (fun it S => body_told w m c it S)] at h2
    cases hw2 : whileOut (fun S : MH d => decide (S.samples.length < n₂)) Iter.late (body c) false s₂ T with
    | running T => rw [hw2] at h2; cases h2
    | raised e T => rw [hw2] at h2; cases h2
    | done T2 =>
      rw [hw2] at h2
      unfold finish at h2 ⊢
      dsimp only [Out.view] at h2 ⊢
      have e : (told w m T2).samples = T2.samples := rfl
      rw [e] at h2
      cases hm : updateModel c.nKde idx₂ T2.samples with
      | error e => rw [hm] at h2; cases h2
      | ok r =>
        rw [hm] at h2
        cases h2
        rfl

-- uniform target: the request for one sample uses one iteration, the next one for three samples returns
example : let it : Iter 1 := ⟨fun _ => [⟨![1/3], 1/2, false⟩], fun _ _ _ => ⟨false, [⟨![1/3], 1/2, false⟩]⟩, false⟩
    UsesAll (fun s => importanceSample flat 1 false s id) [it] (init ![0]) ∧
    ∃ S₁ S₂, importanceSample flat 1 false [it] id (init ![0]) = .done S₁ ∧ S₁.samples.length = 1 ∧
      importanceSample flat 3 false [it, it] id S₁ = .done S₂ := by
  intro it
  have ha : ∀ j : ℕ, Accepting flat (it.burn j) := fun _ => flat_accepting
  refine ⟨.single (T := init ![0]) (by simp [importanceSample, whileOut, init]), ?_⟩
  obtain ⟨S₁, h⟩ := C84_terminates (c := flat) (n := 1) (idx := id) (script := [it]) (init ![0]) (by simp [flat]) (by simp [flat])
    (by norm_num) (by simp [init]) (fun i h => by rw [List.mem_singleton.1 h]; exact ha)
    (fun i h => by rw [List.mem_singleton.1 h]; exact fun _ _ _ => ⟨rfl, flat_accepting⟩)
  have hl := ((C84_mh _ _ _ _ _).2 S₁ h).2.2 rfl (fun i h => by rw [List.mem_singleton.1 h])
  have hl' : S₁.samples.length = 1 := by rw [hl]; simp [init]
  have hmem : ∀ i ∈ [it, it], i = it := by simp
  obtain ⟨S₂, h2⟩ := C84_terminates (c := flat) (n := 3) (idx := id) (script := [it, it]) S₁ (by simp [flat]) (by simp [flat])
    (by norm_num) (by simp [hl']) (fun i h => by rw [hmem i h]; exact ha)
    (fun i h => by rw [hmem i h]; exact fun _ _ _ => ⟨rfl, flat_accepting⟩)
  exact ⟨S₁, S₂, h, hl', h2⟩

end MHast

/-! ### HiDaisee -/

namespace HiD
variable {K : Type*} [Field K] [LinearOrder K] [IsStrictOrderedRing K] {d : ℕ} {lo hi : Pt K d} {target : Pt K d → XF K}

theorem iterations_append (c : Cfg K) (l₂ : List (Iter K d)) : ∀ (l₁ : List (Iter K d)) (t : ℕ) (S : Sampler K d),
    iterations c target t (l₁ ++ l₂) S = (iterations c target t l₁ S).bind fun S' => iterations c target (t + l₁.length) l₂ S'
  | [], _, _ => rfl
  | it :: l₁, t, S => by
    rw [List.cons_append, iterations, iterations]
    cases iterate c target t it S.T with
    | error e => rfl
    | ok r =>
      dsimp only
      rw [iterations_append c l₂ l₁, List.length_cons, show t + 1 + l₁.length = t + (l₁.length + 1) by omega]

theorem iterations_told (c : Cfg K) (xs : List (Pt K d)) (ws : List (XF K)) (m : List (Pt K d × Pt K d) × List (XF K)) :
    ∀ (l : List (Iter K d)) (t : ℕ) (S : Sampler K d), iterations c target t l { S with samples := xs, weights := ws, model := m } =
      (iterations c target t l S).map fun S => { S with samples := xs, weights := ws, model := m }
  | [], _, _ => rfl
  | it :: l, t, S => by
    rw [iterations, iterations]
    show (match iterate c target t it S.T with | .error e => _ | .ok (T, k) => _) = _
    cases iterate c target t it S.T with
    | error e => rfl
    | ok r => exact iterations_told c xs ws m l (t + 1) { S with T := r.1, numQ := S.numQ + 1, numPi := S.numPi + r.2, numQEval := S.numQEval + r.2 }

/-- **C154** (HiDaisee). The two calls in a row end like the single call, also with an exception, and leave the same object. -/
theorem C154_hidaisee (hbox : ∀ i, lo i < hi i) {c : Cfg K} {S S₁ : Sampler K d} (hS : Reach lo hi c target S) {n₁ n₂ : ℕ}
    (h0 : S.samples.length ≤ n₁) (hn : n₁ ≤ n₂) {its : ℕ → Iter K d} (h1 : importanceSample c target n₁ its S = .ok S₁) :
    importanceSample c target n₂ (fun i => its (n₁ - S.samples.length + i)) S₁ = importanceSample c target n₂ its S := by
  have hlen : S₁.samples.length = n₁ := by
    rw [(C36_calls hbox hS h1).1]
    omega
  have hr : (List.range (n₂ - S.samples.length)).map its = (List.range (n₁ - S.samples.length)).map its ++
      (List.range (n₂ - n₁)).map fun i => its (n₁ - S.samples.length + i) := by
    rw [show n₂ - S.samples.length = (n₁ - S.samples.length) + (n₂ - n₁) by omega, List.range_add, List.map_append, List.map_map]
    rfl
  unfold importanceSample at h1 ⊢
  rw [hlen, hr, iterations_append]
  cases hi : iterations c target S.samples.length ((List.range (n₁ - S.samples.length)).map its) S with
  | error e => rw [hi] at h1; cases h1
  | ok Sm =>
    rw [hi] at h1
    dsimp only [Except.bind] at h1 ⊢
    have ht : S.samples.length + ((List.range (n₁ - S.samples.length)).map its).length = n₁ := by
      rw [List.length_map, List.length_range]
      omega
    rw [ht]
    obtain ⟨xs, ws, m, rfl⟩ : ∃ xs ws m, S₁ = { Sm with samples := xs, weights := ws, model := m } := by
      unfold updateModel at h1
      cases hw : setWeights Sm.T.leafNodes.length (Sm.T.leafNodes.map Node.mean) with
      | error e => rw [hw] at h1; cases h1
      | ok w =>
        rw [hw] at h1
        cases h1
        exact ⟨_, _, _, rfl⟩
    rw [iterations_told]
    cases iterations c target n₁ ((List.range (n₂ - n₁)).map fun i => its (n₁ - S.samples.length + i)) Sm with
    | error e => rfl
    | ok Sf =>
      dsimp only [Except.map]
      unfold updateModel
      dsimp only
      cases setWeights Sf.T.leafNodes.length (Sf.T.leafNodes.map Node.mean) <;> rfl

-- a request for two samples on a new object
example : Reach ![0] ![1] (⟨fun _ _ => XF.fin 0, 100, 1/2⟩ : Cfg ℚ) (fun x : Pt ℚ 1 => XF.fin (x 0)) (reset ![0] ![1]) ∧
    (importanceSample (⟨fun _ _ => XF.fin 0, 100, 1/2⟩ : Cfg ℚ) (fun x : Pt ℚ 1 => XF.fin (x 0)) 2
      (fun _ => ⟨fun _ => 0, ![1 / 4], 0⟩) (reset ![0] ![1])).toBool = true :=
  ⟨.new, by decide +kernel⟩

end HiD
end Verif
