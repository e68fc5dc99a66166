import Verif.Props.Shift
import Verif.Model.MultiNested

/-!
# C152 for nested and multi-nested sampling
-/

set_option linter.unusedSectionVars false
set_option autoImplicit false

namespace Verif

section loops
variable {σ τ ρ κ κ' ι ι' : Type*}

/-- Two calls end in the same way, in related states. -/
def Out.Rel (R : σ → τ → Prop) : Out σ → Out τ → Prop
  | .done s, .done t => R s t
  | .raised e s, .raised e' t => e = e' ∧ R s t
  | .running s, .running t => R s t
  | _, _ => False

theorem Out.Rel.state {R : σ → τ → Prop} {o : Out σ} {o' : Out τ} (h : o.Rel R o') : R o.state o'.state := by
  cases o <;> cases o' <;> simp only [Out.Rel] at h
  · exact h
  · exact h.2
  · exact h

theorem forN_rel {R : σ → τ → Prop} {g : ℕ → σ → Out σ} {g' : ℕ → τ → Out τ} (hg : ∀ i s t, R s t → (g i s).Rel R (g' i t)) :
    ∀ (n : ℕ) {s : σ} {t : τ}, R s t → (forN g n s).Rel R (forN g' n t)
  | 0, _, _, h => h
  | n + 1, s, t, h => by
    have ih := forN_rel hg n h
    unfold forN
    cases h1 : forN g n s <;> cases h2 : forN g' n t <;> rw [h1, h2] at ih <;> simp only [Out.Rel] at ih
    · exact hg _ _ _ ih
    · exact ih
    · exact ih

theorem whileScript_rel (f : ι → ι') {R : σ → τ → Prop} {cond : σ → Bool} {cond' : τ → Bool} {late : ι → Bool} {late' : ι' → Bool}
    {body : ι → σ → σ × Option PyErr} {body' : ι' → τ → τ × Option PyErr} (hc : ∀ s t, R s t → cond' t = cond s)
    (hl : ∀ it, late' (f it) = late it)
    (hb : ∀ it s t, R s t → R (body it s).1 (body' (f it) t).1 ∧ (body' (f it) t).2 = (body it s).2) :
    ∀ (script : List ι) (ex : Bool) {s : σ} {t : τ}, R s t →
      (whileScript cond late body ex script s).Rel R (whileScript cond' late' body' ex (script.map f) t)
  | [], ex, s, t, h => by
    unfold whileScript
    rw [List.map_nil]
    dsimp only
    rw [hc s t h]
    split <;> exact h
  | it :: rest, ex, s, t, h => by
    rw [List.map_cons]
    unfold whileScript
    rw [hc s t h]
    obtain ⟨h1, h2⟩ := hb it s t h
    split
    · cases hB : body it s with
      | mk s' e =>
        cases hB' : body' (f it) t with
        | mk t' e' =>
          rw [hB, hB'] at h1 h2
          dsimp only at h1 h2
          subst h2
          cases e' with
          | none =>
            dsimp only
            rw [hl]
            exact whileScript_rel f hc hl hb rest (late it) h1
          | some e => exact ⟨rfl, h1⟩
    · exact h

/-- A session of a second object whose states stay related to those of the first. -/
theorem session_rel (g : κ → κ') {R : σ → τ → Prop} (see : σ → ρ) (see' : τ → ρ) (hsee : ∀ s t, R s t → see' t = see s)
    {call : κ → σ → Out σ} {call' : κ' → τ → Out τ} (h : ∀ k s t, R s t → (call k s).Rel R (call' (g k) t)) :
    ∀ (ks : List κ) {s : σ} {t : τ}, R s t → session call' see' (ks.map g) t = session call see ks s
  | [], _, _, _ => rfl
  | k :: ks, s, t, hR => by
    rw [List.map_cons, session, session]
    have h1 := h k s t hR
    have h2 := h1.state
    rw [session_rel g see see' hsee h ks h2]
    congr 1
    cases ho : call k s <;> cases ho' : call' (g k) t <;> rw [ho, ho'] at h1 <;> simp only [Out.Rel] at h1
    · exact congrArg _ (hsee _ _ h1)
    · obtain ⟨rfl, h1⟩ := h1
      exact congrArg _ (hsee _ _ h1)
    · exact congrArg _ (hsee _ _ h1)

end loops

namespace Nested
variable {d : ℕ}

/-- The sampler with all stored points moved by `b`. -/
def moved (b : Fin d → ℝ) (S : Nest d) : Nest d :=
  { S with live := S.live.map (· + b), own := S.own.map (· + b), kde := S.kde.map (List.map (· + b)) }

/-- The problem moved by `b`. -/
def Cfg.moved (b : Fin d → ℝ) (c : Cfg d) : Cfg d :=
  { c with lo := c.lo + b, hi := c.hi + b, target := fun x => c.target (x - b) }

/-- The row of which `samples` is a view exists. -/
def WF (S : Nest d) : Prop := ∀ i, S.view = some i → i < S.live.length

theorem getD_moved (b : Fin d → ℝ) (l : List (Fin d → ℝ)) {i : ℕ} (h : i < l.length) : (l.map (· + b)).getD i 0 = l.getD i 0 + b := by
  simp [List.getD, List.getElem?_eq_getElem h]

theorem samples_moved (b : Fin d → ℝ) {S : Nest d} (h : WF S) : (moved b S).samples = S.samples.map (· + b) := by
  unfold Nest.samples
  show (match S.view with | none => _ | some i => _) = _
  cases hv : S.view with
  | none => rfl
  | some i =>
    show [(S.live.map (· + b)).getD i 0] = _
    rw [getD_moved b _ (h i hv)]
    rfl

theorem addSample_moved (b : Fin d → ℝ) {S : Nest d} (h : WF S) {k : ℕ} (hk : k < S.live.length) :
    addSample k (moved b S) = moved b (addSample k S) := by
  unfold addSample
  rw [samples_moved b h]
  by_cases hs : S.samples = []
  · rw [if_pos hs, if_pos (by rw [hs]; rfl)]
    rfl
  · rw [if_neg hs, if_neg (by simpa using hs)]
    have e : (moved b S).live = S.live.map (· + b) := rfl
    rw [e, getD_moved b _ hk]
    simp [moved]

theorem addSample_wf {S : Nest d} {k : ℕ} (hk : k < S.live.length) : WF (addSample k S) ∧ (addSample k S).live = S.live := by
  unfold addSample
  split
  · refine ⟨?_, rfl⟩
    intro i hi
    cases hi
    exact hk
  · refine ⟨?_, rfl⟩
    intro i hi
    cases hi

/-- States of the loops of the two runs: object and local variable `values`. -/
def Sim (b : Fin d → ℝ) (p p' : Nest d × List ℝ) : Prop :=
  p'.1 = moved b p.1 ∧ p'.2 = p.2 ∧ WF p.1 ∧ p.1.live.length = p.2.length

theorem minOf_mem : ∀ (vs : List ℝ) (v : ℝ), minOf v vs ∈ v :: vs
  | [], v => by simp [minOf]
  | w :: vs, v => by
    have h := minOf_mem vs (min v w)
    have e : minOf v (w :: vs) = minOf (min v w) vs := rfl
    rw [e]
    rcases List.mem_cons.1 h with h | h
    · rw [h]
      rcases min_choice v w with e | e <;> rw [e] <;> simp
    · exact List.mem_cons_of_mem _ (List.mem_cons_of_mem _ h)

/-- States of the resampling loop of the two runs; the loop changes nothing but the counters of the object. -/
def Sim3 (b : Fin d → ℝ) (S : Nest d) (p p' : Nest d × (Fin d → ℝ) × ℝ) : Prop :=
  p'.1 = moved b p.1 ∧ p'.2.1 = p.2.1 + b ∧ p'.2.2 = p.2.2 ∧ p.1.view = S.view ∧ p.1.live = S.live

theorem resample_moved (b : Fin d → ℝ) (c : Cfg d) (x : Fin d → ℝ) (v : ℝ) (e : Env d) (S : Nest d) :
    (resample c x v e S).Rel (Sim3 b S) (resample (c.moved b) (x + b) v e (moved b S)) := by
  unfold resample
  have hy : clip (c.moved b).lo (c.moved b).hi (e.z0 + (x + b)) = clip c.lo c.hi (e.z0 + x) + b := by
    unfold Cfg.moved
    dsimp only
    rw [show e.z0 + (x + b) = e.z0 + x + b by abel, clip_add]
  have ht : ∀ y, (c.moved b).target (y + b) = c.target y := fun y => by
    show c.target (y + b - b) = _
    rw [add_sub_cancel_right]
  dsimp only
  rw [hy, ht]
  have h := whileScript_rel (fun t : Try d => t) (R := Sim3 b S) (cond := fun p => decide (p.2.2 < v)) (cond' := fun p => decide (p.2.2 < v))
    (late := Try.late) (late' := Try.late)
    (body := fun t p => ((count p.1, t.z + x, c.target (t.z + x)), none))
    (body' := fun t p => ((count p.1, t.z + (x + b), (c.moved b).target (t.z + (x + b))), none))
    (fun s t h => by rw [h.2.2.1]) (fun _ => rfl)
    (fun t p p' h => by
      refine ⟨⟨?_, ?_, ?_, h.2.2.2.1, h.2.2.2.2⟩, rfl⟩
      · dsimp only
        rw [h.1]
        rfl
      · dsimp only
        abel
      · dsimp only
        rw [show t.z + (x + b) = t.z + x + b by abel, ht])
    e.tries e.expired (s := (count S, clip c.lo c.hi (e.z0 + x), c.target (clip c.lo c.hi (e.z0 + x))))
    (t := (count (moved b S), clip c.lo c.hi (e.z0 + x) + b, c.target (clip c.lo c.hi (e.z0 + x)))) ⟨rfl, rfl, rfl, rfl, rfl⟩
  rw [List.map_id'] at h
  exact h

theorem step_moved (b : Fin d → ℝ) (c : Cfg d) (e : Env d) (p p' : Nest d × List ℝ) (h : Sim b p p') :
    (step c e p).Rel (Sim b) (step (c.moved b) e p') := by
  obtain ⟨S, vs⟩ := p
  obtain ⟨S', vs'⟩ := p'
  obtain ⟨h1, h2, h3, h4⟩ := h
  dsimp only at h1 h2 h3 h4
  subst h1 h2
  cases vs' with
  | nil => exact ⟨rfl, rfl, rfl, h3, h4⟩
  | cons v vs =>
    have hk : (v :: vs).idxOf (minOf v vs) < S.live.length := by
      rw [h4]
      exact List.idxOf_lt_length_iff.2 (minOf_mem vs v)
    unfold step
    dsimp only
    generalize (v :: vs).idxOf (minOf v vs) = k at hk ⊢
    rw [addSample_moved b h3 hk]
    obtain ⟨hw, hl⟩ := addSample_wf hk
    have hm : ({ moved b (addSample k S) with L := (moved b (addSample k S)).L ++ [minOf v vs] } : Nest d) =
      moved b { addSample k S with L := (addSample k S).L ++ [minOf v vs] } := rfl
    rw [hm]
    have hlive : (moved b (addSample k S)).live = (addSample k S).live.map (· + b) := rfl
    have hlt : e.r % (addSample k S).live.length < (addSample k S).live.length := Nat.mod_lt _ (by rw [hl]; omega)
    rw [hlive, List.length_map, getD_moved b _ hlt]
    have hr := resample_moved b c ((addSample k S).live.getD (e.r % (addSample k S).live.length) 0) (minOf v vs) e
      { addSample k S with L := (addSample k S).L ++ [minOf v vs] }
    revert hr
    generalize resample c ((addSample k S).live.getD (e.r % (addSample k S).live.length) 0) (minOf v vs) e
      { addSample k S with L := (addSample k S).L ++ [minOf v vs] } = o
    generalize resample (c.moved b) ((addSample k S).live.getD (e.r % (addSample k S).live.length) 0 + b) (minOf v vs) e
      (moved b { addSample k S with L := (addSample k S).L ++ [minOf v vs] }) = o'
    intro hr
    have wf : ∀ q : Nest d, q.view = (addSample k S).view → q.live = (addSample k S).live → WF q ∧ q.live.length = (v :: vs).length := by
      intro q hq1 hq2
      refine ⟨?_, by rw [hq2, hl, h4]⟩
      intro i hi
      rw [hq2]
      exact hw i (by rw [← hq1, hi])
    cases o with
    | done q =>
      cases o' with
      | done q' =>
        obtain ⟨r1, r2, r3, r4, r5⟩ := hr
        obtain ⟨w1, w2⟩ := wf q.1 r4 r5
        refine ⟨?_, ?_, ?_, ?_⟩
        · dsimp only
          rw [r1, r2]
          simp [moved]
        · dsimp only
          rw [r3]
        · intro i hi
          dsimp only
          rw [List.length_set]
          exact w1 i hi
        · dsimp only
          rw [List.length_set, List.length_set, w2]
      | raised e q' => exact hr.elim
      | running q' => exact hr.elim
    | raised e q =>
      cases o' with
      | done q' => exact hr.elim
      | raised e q' =>
        obtain ⟨r0, r1, r2, r3, r4, r5⟩ := hr
        exact ⟨r0, r1, rfl, wf q.1 r4 r5⟩
      | running q' => exact hr.elim
    | running q =>
      cases o' with
      | done q' => exact hr.elim
      | raised e q' => exact hr.elim
      | running q' =>
        obtain ⟨r1, r2, r3, r4, r5⟩ := hr
        exact ⟨r1, rfl, wf q.1 r4 r5⟩

/-- States of the two objects between calls. -/
def SimS (b : Fin d → ℝ) (S S' : Nest d) : Prop := S' = moved b S ∧ WF S

/-- What a call does after the loop: weights, then the density estimate. -/
noncomputable def finish (N nKde : ℕ) (idx : ℕ → ℕ) (o : Out (Nest d × List ℝ)) : Out (Nest d) :=
  match o with
  | .running p => Out.running p.1
  | .raised e p => .raised e p.1
  | .done p =>
    if p.1.samples = [] then .raised .index p.1
    else
      match MHast.updateModel nKde idx ({ p.1 with weights := finalWeights N p.1.L } : Nest d).samples with
      | .error e => .raised e { p.1 with weights := finalWeights N p.1.L }
      | .ok m => .done { p.1 with weights := finalWeights N p.1.L, kde := some m }

theorem finish_moved (b : Fin d → ℝ) (N nKde : ℕ) (idx : ℕ → ℕ) {o o' : Out (Nest d × List ℝ)} (h : o.Rel (Sim b) o') :
    Out.Rel (SimS b) (finish N nKde idx o) (finish N nKde idx o') := by
  unfold finish
  cases o with
  | running p =>
    cases o' with
    | running p' => exact ⟨h.1, h.2.2.1⟩
    | raised e p' => exact h.elim
    | done p' => exact h.elim
  | raised e p =>
    cases o' with
    | running p' => exact h.elim
    | raised e p' => exact ⟨h.1, h.2.1, h.2.2.2.1⟩
    | done p' => exact h.elim
  | done p =>
    cases o' with
    | running p' => exact h.elim
    | raised e p' => exact h.elim
    | done p' =>
      obtain ⟨S, vs⟩ := p
      obtain ⟨S', vs'⟩ := p'
      obtain ⟨h1, h2, h3, -⟩ := h
      dsimp only at h1 h2 h3 ⊢
      subst h1
      have hs1 : ({ moved b S with weights := finalWeights N (moved b S).L } : Nest d).samples = S.samples.map (· + b) := samples_moved b h3
      have hs2 : ({ S with weights := finalWeights N S.L } : Nest d).samples = S.samples := rfl
      rw [samples_moved b h3, hs1, hs2, MHast.updateModel_moved]
      by_cases he : S.samples = []
      · rw [if_pos he, if_pos (by rw [he]; rfl)]
        exact ⟨rfl, rfl, h3⟩
      · rw [if_neg he, if_neg (by simpa using he)]
        cases MHast.updateModel nKde idx S.samples with
        | error e => exact ⟨rfl, rfl, h3⟩
        | ok m => exact ⟨rfl, h3⟩

theorem importanceSample_moved (b : Fin d → ℝ) (c : Cfg d) (n : ℕ) (env : ℕ → Env d) (idx : ℕ → ℕ) (S S' : Nest d) (h : SimS b S S') :
    (importanceSample c n env idx S).Rel (SimS b) (importanceSample (c.moved b) n env idx S') := by
  obtain ⟨rfl, hw⟩ := h
  unfold importanceSample
  have hv : (moved b S).live.map (c.moved b).target = S.live.map c.target := by
    show (S.live.map (· + b)).map (fun x => c.target (x - b)) = _
    rw [List.map_map]
    exact List.map_congr_left fun x _ => by simp
  rw [hv, samples_moved b hw, List.length_map]
  have hf := forN_rel (R := Sim b) (g := fun i => step c (env i)) (g' := fun i => step (c.moved b) (env i))
    (fun i p p' h => step_moved b c (env i) p p' h) (n - S.samples.length)
    (s := ({ S with numPi := S.numPi + S.live.length }, S.live.map c.target))
    (t := ({ moved b S with numPi := (moved b S).numPi + (moved b S).live.length }, S.live.map c.target))
    ⟨by simp [moved], rfl, hw, by simp⟩
  exact finish_moved b c.N c.nKde idx hf

end Nested

/-- **C152** for nested sampling, from new samplers with the same random numbers. -/
theorem C152_nested {d : ℕ} (b : Fin d → ℝ) (c : Nested.Cfg d) (us : Fin c.N → Fin d → ℝ) (calls : List (ℕ × (ℕ → Nested.Env d) × (ℕ → ℕ))) :
    session (fun k => Nested.importanceSample { c with lo := c.lo + b, hi := c.hi + b, target := fun x => c.target (x - b) } k.1 k.2.1 k.2.2)
        (fun S => (S.samples, S.weights, S.live, S.kde, S.numPi, S.numQEval, S.numQ)) calls
        (Nested.reset { c with lo := c.lo + b, hi := c.hi + b, target := fun x => c.target (x - b) } us) =
      session (fun k => Nested.importanceSample c k.1 k.2.1 k.2.2)
        (fun S => (S.samples.map (· + b), S.weights, S.live.map (· + b), S.kde.map (List.map (· + b)), S.numPi, S.numQEval, S.numQ)) calls
        (Nested.reset c us) := by
  have h := session_rel (fun a : ℕ × (ℕ → Nested.Env d) × (ℕ → ℕ) => a) (R := Nested.SimS b)
    (fun S => (S.samples.map (· + b), S.weights, S.live.map (· + b), S.kde.map (List.map (· + b)), S.numPi, S.numQEval, S.numQ))
    (fun S => (S.samples, S.weights, S.live, S.kde, S.numPi, S.numQEval, S.numQ))
    (fun S S' h => by
      rw [h.1, Nested.samples_moved b h.2]
      rfl)
    (call := fun k => Nested.importanceSample c k.1 k.2.1 k.2.2) (call' := fun k => Nested.importanceSample (c.moved b) k.1 k.2.1 k.2.2)
    (fun k S S' h => Nested.importanceSample_moved b c k.1 k.2.1 k.2.2 S S' h) calls
    (s := Nested.reset c us) (t := Nested.reset (c.moved b) us) ⟨by
      unfold Nested.reset Nested.moved Nested.Cfg.moved
      dsimp only
      congr 1
      rw [List.map_ofFn]
      congr 1
      funext k i
      simp only [Function.comp, Pi.add_apply]
      ring, by
      intro i hi
      cases hi⟩
  rw [List.map_id'] at h
  exact h

/-! ### Multi-nested sampling -/

namespace MultiNested
variable {d : ℕ}
open Nested (moved WF Sim SimS Sim3 getD_moved samples_moved addSample_moved addSample_wf finish finish_moved minOf_mem)
open Nested (Nest addSample minOf finalWeights count)

/-- The ellipsoid moved by `b`. -/
def Ell.moved (b : Fin d → ℝ) (e : Ell d) : Ell d := { e with loc := e.loc + b }

/-- The problem moved by `b`. -/
def Cfg.moved (b : Fin d → ℝ) (c : Cfg d) : Cfg d :=
  { c with lo := c.lo + b, hi := c.hi + b, target := fun x => c.target (x - b) }

/-- The points drawn from the moved ellipsoids. -/
def Env.moved (b : Fin d → ℝ) (e : Env d) : Env d := ⟨e.y0 + b, e.expired, e.tries.map fun t => ⟨t.y + b, t.late⟩⟩

theorem mean_moved (b : Fin d → ℝ) (pts : List (Fin d → ℝ)) (h : ¬ pts.length < d) : mean (pts.map (· + b)) = mean pts + b := by
  funext j
  have hd : 0 < d := j.pos
  have hn : (pts.length : ℝ) ≠ 0 := by
    have : 0 < pts.length := by omega
    positivity
  have hs : ∀ l : List (Fin d → ℝ), ((l.map (· + b)).map fun x => x j).sum = (l.map fun x => x j).sum + l.length * b j := by
    intro l
    induction l with
    | nil => simp
    | cons x l ih =>
      rw [List.map_cons, List.map_cons, List.sum_cons, ih, List.map_cons, List.sum_cons, List.length_cons, Pi.add_apply]
      push_cast
      ring
  unfold mean
  rw [hs, List.length_map, Pi.add_apply, add_div, mul_div_cancel_left₀ _ hn]

theorem cov_moved (b : Fin d → ℝ) (pts : List (Fin d → ℝ)) (h : ¬ pts.length < d) : cov (pts.map (· + b)) = cov pts := by
  unfold cov
  rw [mean_moved b pts h, List.length_map]
  simp only [List.map_map, Function.comp_def, Pi.add_apply, add_sub_add_right_eq_sub]

theorem std_moved (b : Fin d → ℝ) (pts : List (Fin d → ℝ)) (h : ¬ pts.length < d) : std (pts.map (· + b)) = std pts := by
  unfold std
  rw [mean_moved b pts h, List.length_map]
  simp only [List.map_map, Function.comp_def, Pi.add_apply, add_sub_add_right_eq_sub]

theorem mkEll_moved (b loc : Fin d → ℝ) (scale : Matrix (Fin d) (Fin d) ℝ) (idx : List ℕ) :
    mkEll (loc + b) scale idx = (mkEll loc scale idx).map (Ell.moved b) := by
  unfold mkEll
  split <;> rfl

theorem fit_moved (b : Fin d → ℝ) (inflate : ℝ) (pts : List (Fin d → ℝ)) (idx : List ℕ) :
    fit inflate (pts.map (· + b)) idx = (fit inflate pts idx).map (Ell.moved b) := by
  unfold fit
  rw [List.length_map]
  by_cases h : pts.length < d
  · rw [if_pos h, if_pos h]
    rfl
  · rw [if_neg h, if_neg h, mean_moved b pts h, cov_moved b pts h, std_moved b pts h]
    simp only [mkEll_moved]
    split
    · split <;> rfl
    · split <;> rfl

theorem fit_idx {inflate : ℝ} {pts : List (Fin d → ℝ)} {idx : List ℕ} {e : Ell d} (h : fit inflate pts idx = .ok e) : e.idx = idx := by
  have hm : ∀ (loc : Fin d → ℝ) (sc : Matrix (Fin d) (Fin d) ℝ), mkEll loc sc idx = .ok e → e.idx = idx := by
    intro loc sc h
    unfold mkEll at h
    split at h
    · cases h
    · cases h
      rfl
  unfold fit at h
  split at h
  · cases h
  · split at h
    · split at h <;> exact hm _ _ h
    · split at h <;> exact hm _ _ h

theorem cluster_lt {km : ℕ → ℕ → ℕ} {k N i p : ℕ} (h : p ∈ cluster km k N i) : p < N :=
  List.mem_range.1 (List.mem_filter.1 h).1

theorem fitAll_moved (b : Fin d → ℝ) (c : Cfg d) (km : ℕ → ℕ → ℕ) (pts : List (Fin d → ℝ)) (k : ℕ) : ∀ i,
    fitAll (c.moved b) km (pts.map (· + b)) k i = (fitAll c km pts k i).map (List.map (Ell.moved b))
  | 0 => rfl
  | i + 1 => by
    unfold fitAll
    rw [fitAll_moved b c km pts k i, List.length_map]
    have hp : ((cluster km k pts.length i).map fun p => (pts.map (· + b)).getD p 0) =
        ((cluster km k pts.length i).map fun p => pts.getD p 0).map (· + b) := by
      rw [List.map_map]
      exact List.map_congr_left fun p hp => getD_moved b pts (cluster_lt hp)
    rw [hp, fit_moved]
    cases fitAll c km pts k i with
    | error e => rfl
    | ok es =>
      show (match ((fit c.inflate ((cluster km k pts.length i).map fun p => pts.getD p 0) (cluster km k pts.length i)).map (Ell.moved b)) with
        | .error e => _
        | .ok e => _) = _
      dsimp only
      cases fit c.inflate ((cluster km k pts.length i).map fun p => pts.getD p 0) (cluster km k pts.length i) with
      | error e => rfl
      | ok e => simp [Except.map]

theorem fitAll_idx {c : Cfg d} {km : ℕ → ℕ → ℕ} {pts : List (Fin d → ℝ)} {k : ℕ} : ∀ {i : ℕ} {es : List (Ell d)},
    fitAll c km pts k i = .ok es → ∀ e ∈ es, ∀ p ∈ e.idx, p < pts.length
  | 0, es, h => by
    cases h
    simp
  | i + 1, es, h => by
    unfold fitAll at h
    cases h1 : fitAll c km pts k i with
    | error e => rw [h1] at h; cases h
    | ok es1 =>
      rw [h1] at h
      dsimp only at h
      cases h2 : fit c.inflate ((cluster km k pts.length i).map fun p => pts.getD p 0) (cluster km k pts.length i) with
      | error e => rw [h2] at h; cases h
      | ok e =>
        rw [h2] at h
        cases h
        intro e' he' p hp
        rcases List.mem_append.1 he' with he' | he'
        · exact fitAll_idx h1 e' he' p hp
        · rw [List.mem_singleton.1 he', fit_idx h2] at hp
          exact cluster_lt hp

theorem pairDistances_moved (b : Fin d → ℝ) : ∀ es : List (Ell d), pairDistances (es.map (Ell.moved b)) = pairDistances es
  | [] => rfl
  | e :: es => by
    rw [List.map_cons, pairDistances, pairDistances, pairDistances_moved b es, List.map_map]
    congr 1
    apply List.map_congr_left
    intro e' _
    simp [dist, Ell.moved]

theorem clustering_moved (b : Fin d → ℝ) (c : Cfg d) (km : ℕ → ℕ → ℕ) (pts : List (Fin d → ℝ)) : ∀ (fuel : ℕ) (es : List (Ell d)),
    clustering (c.moved b) km (pts.map (· + b)) fuel (es.map (Ell.moved b)) =
      (clustering c km pts fuel es).map fun r => r.map (List.map (Ell.moved b))
  | 0, _ => rfl
  | fuel + 1, es => by
    have hv : ∀ es : List (Ell d), (es.map (Ell.moved b)).map Ell.vol = es.map Ell.vol := fun es => by
      rw [List.map_map]
      rfl
    unfold clustering
    dsimp only
    rw [List.length_map, List.length_map, fitAll_moved, hv]
    split
    · rfl
    · split
      · rfl
      · cases fitAll c km pts (es.length + 1) (es.length + 1) with
        | error e => rfl
        | ok es' =>
          dsimp only [Except.map]
          rw [hv, pairDistances_moved]
          split
          · rfl
          · split
            · rfl
            · exact clustering_moved b c km pts fuel es'

theorem clustering_idx {c : Cfg d} {km : ℕ → ℕ → ℕ} {pts : List (Fin d → ℝ)} : ∀ {fuel : ℕ} {es es' : List (Ell d)},
    (∀ e ∈ es, ∀ p ∈ e.idx, p < pts.length) → clustering c km pts fuel es = some (.ok es') → ∀ e ∈ es', ∀ p ∈ e.idx, p < pts.length
  | 0, _, _, _, h => by cases h
  | fuel + 1, es, es', he, h => by
    unfold clustering at h
    dsimp only at h
    split at h
    · cases h
    · split at h
      · cases h
        exact he
      · cases hf : fitAll c km pts (es.length + 1) (es.length + 1) with
        | error e => rw [hf] at h; cases h
        | ok es1 =>
          rw [hf] at h
          dsimp only at h
          split at h
          · cases h
            exact he
          · split at h
            · cases h
              exact he
            · exact clustering_idx (fitAll_idx hf) h

theorem recursiveClustering_moved (b : Fin d → ℝ) (c : Cfg d) (km : ℕ → ℕ → ℕ) (fuel : ℕ) (pts : List (Fin d → ℝ)) :
    recursiveClustering (c.moved b) km fuel (pts.map (· + b)) =
      (recursiveClustering c km fuel pts).map fun r => r.map (List.map (Ell.moved b)) := by
  unfold recursiveClustering
  have hi : (c.moved b).inflate = c.inflate := rfl
  rw [hi, fit_moved, List.length_map]
  cases fit c.inflate pts (List.range pts.length) with
  | error e => rfl
  | ok e => exact clustering_moved b c km pts fuel [e]

theorem recursiveClustering_idx {c : Cfg d} {km : ℕ → ℕ → ℕ} {fuel : ℕ} {pts : List (Fin d → ℝ)} {es : List (Ell d)}
    (h : recursiveClustering c km fuel pts = some (.ok es)) : ∀ e ∈ es, ∀ p ∈ e.idx, p < pts.length := by
  unfold recursiveClustering at h
  cases hf : fit c.inflate pts (List.range pts.length) with
  | error e => rw [hf] at h; cases h
  | ok e =>
    rw [hf] at h
    refine clustering_idx ?_ h
    intro e' he' p hp
    rw [List.mem_singleton.1 he', fit_idx hf] at hp
    exact List.mem_range.1 hp

theorem resample_moved (b : Fin d → ℝ) (c : Cfg d) (el : Ell d) (v : ℝ) (e : Env d) (S : Nest d) :
    (resample c el v e S).Rel (Sim3 b S) (resample (c.moved b) (el.moved b) v (e.moved b) (moved b S)) := by
  unfold resample
  have hy : clip (c.moved b).lo (c.moved b).hi (e.moved b).y0 = clip c.lo c.hi e.y0 + b := clip_add _ _ _ _
  have ht : ∀ y, (c.moved b).target (y + b) = c.target y := fun y => by
    show c.target (y + b - b) = _
    rw [add_sub_cancel_right]
  dsimp only
  rw [hy, ht]
  exact whileScript_rel (fun t : Try d => ⟨t.y + b, t.late⟩) (R := Sim3 b S)
    (cond := fun p => decide (p.2.2 < v) && decide (c.radius ^ d < el.vol)) (cond' := fun p => decide (p.2.2 < v) && decide (c.radius ^ d < el.vol))
    (late := Try.late) (late' := Try.late)
    (body := fun t p => ((count p.1, t.y, c.target t.y), none))
    (body' := fun t p => ((count p.1, t.y, (c.moved b).target t.y), none))
    (fun s t h => by rw [h.2.2.1]) (fun _ => rfl)
    (fun t p p' h => by
      refine ⟨⟨?_, rfl, ht t.y, h.2.2.2.1, h.2.2.2.2⟩, rfl⟩
      dsimp only
      rw [h.1]
      rfl)
    e.tries e.expired (s := (count S, clip c.lo c.hi e.y0, c.target (clip c.lo c.hi e.y0)))
    (t := (count (moved b S), clip c.lo c.hi e.y0 + b, c.target (clip c.lo c.hi e.y0))) ⟨rfl, rfl, rfl, rfl, rfl⟩

/-- As `Nested.Sim`, with the number of live points. -/
def SimN (b : Fin d → ℝ) (N : ℕ) (p p' : Nest d × List ℝ) : Prop := Sim b p p' ∧ p.2.length = N

theorem step_moved (b : Fin d → ℝ) (c : Cfg d) (N : ℕ) (el : Ell d) (hel : ∀ i ∈ el.idx, i < N) (e : Env d) (p p' : Nest d × List ℝ)
    (h : SimN b N p p') : (step c el e p).Rel (SimN b N) (step (c.moved b) (el.moved b) (e.moved b) p') := by
  obtain ⟨S, vs0⟩ := p
  obtain ⟨S', vs'⟩ := p'
  obtain ⟨⟨h1, h2, h3, h4⟩, hN⟩ := h
  dsimp only at h1 h2 h3 h4 hN
  subst h1 h2
  unfold step
  dsimp only
  have hidx : (el.moved b).idx = el.idx := rfl
  rw [hidx]
  cases hv : el.idx.map (fun i => vs'.getD i 0) with
  | nil => exact ⟨rfl, ⟨rfl, rfl, h3, h4⟩, hN⟩
  | cons v vs =>
    have hk : el.idx.getD ((v :: vs).idxOf (minOf v vs)) 0 < S.live.length := by
      have hlt : (v :: vs).idxOf (minOf v vs) < el.idx.length := by
        rw [← List.length_map (fun i => vs'.getD i 0), hv]
        exact List.idxOf_lt_length_iff.2 (minOf_mem vs v)
      rw [h4, hN, List.getD, List.getElem?_eq_getElem hlt]
      exact hel _ (List.getElem_mem hlt)
    dsimp only
    generalize el.idx.getD ((v :: vs).idxOf (minOf v vs)) 0 = k at hk ⊢
    rw [addSample_moved b h3 hk]
    obtain ⟨hw, hl⟩ := addSample_wf hk
    have hm : ({ moved b (addSample k S) with L := (moved b (addSample k S)).L ++ [minOf v vs] } : Nest d) =
      moved b { addSample k S with L := (addSample k S).L ++ [minOf v vs] } := rfl
    rw [hm]
    have hr := resample_moved b c el (minOf v vs) e { addSample k S with L := (addSample k S).L ++ [minOf v vs] }
    revert hr
    generalize resample c el (minOf v vs) e { addSample k S with L := (addSample k S).L ++ [minOf v vs] } = o
    generalize resample (c.moved b) (el.moved b) (minOf v vs) (e.moved b)
      (moved b { addSample k S with L := (addSample k S).L ++ [minOf v vs] }) = o'
    intro hr
    have wf : ∀ q : Nest d, q.view = (addSample k S).view → q.live = (addSample k S).live → WF q ∧ q.live.length = vs'.length := by
      intro q hq1 hq2
      refine ⟨?_, by rw [hq2, hl, h4]⟩
      intro i hi
      rw [hq2]
      exact hw i (by rw [← hq1, hi])
    cases o with
    | done q =>
      cases o' with
      | done q' =>
        obtain ⟨r1, r2, r3, r4, r5⟩ := hr
        obtain ⟨w1, w2⟩ := wf q.1 r4 r5
        refine ⟨⟨?_, ?_, ?_, ?_⟩, ?_⟩
        · dsimp only
          rw [r1, r2]
          simp [moved]
        · dsimp only
          rw [r3]
        · intro i hi
          dsimp only
          rw [List.length_set]
          exact w1 i hi
        · dsimp only
          rw [List.length_set, List.length_set, w2]
        · dsimp only
          rw [List.length_set, hN]
      | raised e q' => exact hr.elim
      | running q' => exact hr.elim
    | raised e q =>
      cases o' with
      | done q' => exact hr.elim
      | raised e q' =>
        obtain ⟨r0, r1, r2, r3, r4, r5⟩ := hr
        exact ⟨r0, ⟨r1, rfl, wf q.1 r4 r5⟩, hN⟩
      | running q' => exact hr.elim
    | running q =>
      cases o' with
      | done q' => exact hr.elim
      | raised e q' => exact hr.elim
      | running q' =>
        obtain ⟨r1, r2, r3, r4, r5⟩ := hr
        exact ⟨⟨r1, rfl, wf q.1 r4 r5⟩, hN⟩

theorem step_default (b : Fin d → ℝ) (c : Cfg d) (N : ℕ) (e : Env d) (p p' : Nest d × List ℝ)
    (h : SimN b N p p') : (step c ⟨0, 0, []⟩ e p).Rel (SimN b N) (step (c.moved b) ⟨0, 0, []⟩ (e.moved b) p') := ⟨rfl, h⟩

theorem Rel.mono {σ τ : Type*} {R Q : σ → τ → Prop} (hRQ : ∀ s t, R s t → Q s t) {o : Out σ} {o' : Out τ} (h : o.Rel R o') : o.Rel Q o' := by
  cases o <;> cases o' <;> simp only [Out.Rel] at h ⊢
  · exact hRQ _ _ h
  · exact ⟨h.1, hRQ _ _ h.2⟩
  · exact hRQ _ _ h

theorem importanceSample_moved (b : Fin d → ℝ) (c : Cfg d) (n : ℕ) (km : ℕ → ℕ → ℕ) (fuel : ℕ) (env : ℕ → Env d) (idx : ℕ → ℕ) (S S' : Nest d)
    (h : SimS b S S') :
    (importanceSample c n km fuel env idx S).Rel (SimS b) (importanceSample (c.moved b) n km fuel (fun i => (env i).moved b) idx S') := by
  obtain ⟨rfl, hw⟩ := h
  have hlive : (moved b S).live = S.live.map (· + b) := rfl
  have hS0 : ({ moved b S with numPi := (moved b S).numPi + (moved b S).live.length } : Nest d) = moved b { S with numPi := S.numPi + S.live.length } := by
    simp [moved]
  have hv : (moved b S).live.map (c.moved b).target = S.live.map c.target := by
    show (S.live.map (· + b)).map (fun x => c.target (x - b)) = _
    rw [List.map_map]
    exact List.map_congr_left fun x _ => by simp
  unfold importanceSample
  dsimp only
  rw [hS0, hv, hlive, recursiveClustering_moved, samples_moved b hw, List.length_map]
  cases hrc : recursiveClustering c km fuel S.live with
  | none => exact ⟨rfl, hw⟩
  | some r =>
    cases r with
    | error e => exact ⟨rfl, rfl, hw⟩
    | ok ells =>
      have hidx := recursiveClustering_idx hrc
      dsimp only [Option.map, Except.map]
      rw [List.length_map]
      generalize perEll n S.samples.length ells.length = m
      have hstep : ∀ i p p', SimN b S.live.length p p' →
          (step c (ells.getD (i / m) ⟨0, 0, []⟩) (env i) p).Rel (SimN b S.live.length)
            (step (c.moved b) ((ells.map (Ell.moved b)).getD (i / m) ⟨0, 0, []⟩) ((env i).moved b) p') := by
        intro i p p' h
        by_cases hi : i / m < ells.length
        · have h1 : (ells.map (Ell.moved b)).getD (i / m) ⟨0, 0, []⟩ = (ells.getD (i / m) ⟨0, 0, []⟩).moved b := by
            simp [List.getD, List.getElem?_eq_getElem hi]
          rw [h1]
          refine step_moved b c _ _ ?_ (env i) p p' h
          rw [List.getD, List.getElem?_eq_getElem hi]
          exact hidx _ (List.getElem_mem hi)
        · have h1 : (ells.map (Ell.moved b)).getD (i / m) ⟨0, 0, []⟩ = ⟨0, 0, []⟩ := by
            simp [List.getD, List.getElem?_eq_none (not_lt.1 hi)]
          have h2 : ells.getD (i / m) ⟨0, 0, []⟩ = ⟨0, 0, []⟩ := by
            simp [List.getD, List.getElem?_eq_none (not_lt.1 hi)]
          rw [h1, h2]
          exact step_default b c _ (env i) p p' h
      have hf := forN_rel (R := SimN b S.live.length) (g := fun i => step c (ells.getD (i / m) ⟨0, 0, []⟩) (env i))
        (g' := fun i => step (c.moved b) ((ells.map (Ell.moved b)).getD (i / m) ⟨0, 0, []⟩) ((env i).moved b))
        hstep (ells.length * m)
        (s := ({ S with numPi := S.numPi + S.live.length }, S.live.map c.target))
        (t := (moved b { S with numPi := S.numPi + S.live.length }, S.live.map c.target))
        ⟨⟨rfl, rfl, hw, by simp⟩, by simp⟩
      exact finish_moved b c.N c.nKde idx (Rel.mono (fun _ _ h => h.1) hf)

end MultiNested

/-- **C152** for multi-nested sampling; the points drawn from the ellipsoids are moved with them. `km` stands for the clustering. -/
theorem C152_multiNested {d : ℕ} (b : Fin d → ℝ) (c : MultiNested.Cfg d) (us : Fin c.N → Fin d → ℝ)
    (calls : List (ℕ × (ℕ → ℕ → ℕ) × ℕ × (ℕ → MultiNested.Env d) × (ℕ → ℕ))) :
    session (fun (k : ℕ × (ℕ → ℕ → ℕ) × ℕ × (ℕ → MultiNested.Env d) × (ℕ → ℕ)) =>
          MultiNested.importanceSample { c with lo := c.lo + b, hi := c.hi + b, target := fun x => c.target (x - b) }
            k.1 k.2.1 k.2.2.1 k.2.2.2.1 k.2.2.2.2)
        (fun S => (S.samples, S.weights, S.live, S.kde, S.numPi, S.numQEval, S.numQ))
        (calls.map fun k => (k.1, k.2.1, k.2.2.1,
          (fun i => ⟨(k.2.2.2.1 i).y0 + b, (k.2.2.2.1 i).expired, (k.2.2.2.1 i).tries.map fun t => ⟨t.y + b, t.late⟩⟩), k.2.2.2.2))
        (MultiNested.reset { c with lo := c.lo + b, hi := c.hi + b, target := fun x => c.target (x - b) } us) =
      session (fun (k : ℕ × (ℕ → ℕ → ℕ) × ℕ × (ℕ → MultiNested.Env d) × (ℕ → ℕ)) =>
          MultiNested.importanceSample c k.1 k.2.1 k.2.2.1 k.2.2.2.1 k.2.2.2.2)
        (fun S => (S.samples.map (· + b), S.weights, S.live.map (· + b), S.kde.map (List.map (· + b)), S.numPi, S.numQEval, S.numQ)) calls
        (MultiNested.reset c us) :=
  session_rel (fun k : ℕ × (ℕ → ℕ → ℕ) × ℕ × (ℕ → MultiNested.Env d) × (ℕ → ℕ) =>
      (k.1, k.2.1, k.2.2.1, (fun i => (k.2.2.2.1 i).moved b), k.2.2.2.2)) (R := Nested.SimS b)
    (fun S => (S.samples.map (· + b), S.weights, S.live.map (· + b), S.kde.map (List.map (· + b)), S.numPi, S.numQEval, S.numQ))
    (fun S => (S.samples, S.weights, S.live, S.kde, S.numPi, S.numQEval, S.numQ))
    (fun S S' h => by
      rw [h.1, Nested.samples_moved b h.2]
      rfl)
    (call := fun k => MultiNested.importanceSample c k.1 k.2.1 k.2.2.1 k.2.2.2.1 k.2.2.2.2)
    (call' := fun k => MultiNested.importanceSample (c.moved b) k.1 k.2.1 k.2.2.1 k.2.2.2.1 k.2.2.2.2)
    (fun k S S' h => MultiNested.importanceSample_moved b c k.1 k.2.1 k.2.2.1 k.2.2.2.1 k.2.2.2.2 S S' h) calls
    (s := MultiNested.reset c us) (t := MultiNested.reset (c.moved b) us) ⟨by
      unfold MultiNested.reset Nested.moved MultiNested.Cfg.moved
      dsimp only
      congr 1
      rw [List.map_ofFn]
      congr 1
      funext k i
      simp only [Function.comp, Pi.add_apply]
      ring, by
      intro i hi
      cases hi⟩

/-- The first live points of the two samplers for two live points in the unit interval and in the interval from 5 to 6. -/
example (t : (Fin 1 → ℝ) → ℝ) : let c : Nested.Cfg 1 := { lo := ![0], hi := ![1], target := t, N := 2, nKde := 1 }
    (Nested.reset c fun k _ => if k = 0 then 1/4 else 3/4).live = [![1/4], ![3/4]] ∧
      (Nested.reset { c with lo := ![5], hi := ![6], target := fun x => t (x - ![5]) } fun k _ => if k = 0 then 1/4 else 3/4).live =
        [![21/4], ![23/4]] := by
  constructor
  · simp [Nested.reset, List.ofFn_succ]
    constructor <;> (funext i; fin_cases i; norm_num)
  · simp [Nested.reset, List.ofFn_succ]
    constructor <;> (funext i; fin_cases i; norm_num)

end Verif
