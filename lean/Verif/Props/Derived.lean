import Verif.Model.Derived
import Verif.Spec.Basic
import Mathlib.Data.List.Induction

/-!
# Property C70: models that must be conditioned first
-/

set_option linter.unusedSectionVars false
set_option autoImplicit false

namespace Verif
namespace Derived

/-! ### ABC -/

namespace Abc
variable {G E Z W : Type*}

theorem after_o (P : Parts G E Z W) (s : Abc G E W) (c : Call Z) :
    (after P s c).o = match c with
      | .condition o => some o
      | _ => s.o := by
  cases c with
  | condition o => rfl
  | prob z =>
    simp only [after, prob]
    cases h : s.o with
    | none => simp [h]
    | some o =>
      have hs : (generate P s z).2.o = s.o := rfl
      generalize generate P s z = t at hs
      obtain ⟨r, s'⟩ := t
      simp only at hs
      cases r with
      | error e => simp [hs, h]
      | ok r => cases P.loglik <;> cases P.lik <;> simp [hs, h]
  | logProb z =>
    simp only [after, logProb]
    cases h : s.o with
    | none => simp [h]
    | some o =>
      have hs : (generate P s z).2.o = s.o := rfl
      generalize generate P s z = t at hs
      obtain ⟨r, s'⟩ := t
      simp only at hs
      cases r with
      | error e => simp [hs, h]
      | ok r => cases P.loglik <;> cases P.lik <;> simp [hs, h]
  | sample n =>
    simp only [after, sample]
    split <;> rfl

theorem history_o (P : Parts G E Z W) (h : List (Call Z)) : ∀ s : Abc G E W,
    ((∀ o, Call.condition o ∉ h) → (h.foldl (after P) s).o = s.o) ∧
    ((∃ o, Call.condition o ∈ h) → (h.foldl (after P) s).o ≠ none) := by
  induction h with
  | nil => intro s; simp
  | cons c h ih =>
    intro s
    simp only [List.foldl_cons]
    have ho := after_o P s c
    constructor
    · intro hc
      rw [(ih _).1 fun o ho => hc o (by simp [ho]), ho]
      cases c with
      | condition o => exact absurd (by simp) (hc o)
      | _ => rfl
    · rintro ⟨o, hm⟩
      by_cases hh : ∃ o, Call.condition o ∈ h
      · exact (ih _).2 hh
      · rw [(ih _).1 fun o ho => hh ⟨o, ho⟩, ho]
        rcases List.mem_cons.1 hm with rfl | hm
        · simp
        · exact absurd ⟨o, hm⟩ hh

end Abc

/-- **C70, ABC.** After any history of calls on a new object, `prob` and `log_prob` raise ValueError if `condition` was
never called; if it was, and the generative model does not fail and some likelihood was given, they return. -/
theorem C70_abc {G E Z W : Type*} (P : Parts G E Z W) (s0 : Abc G E W) (h0 : s0.o = none) (h : List (Abc.Call Z))
    (z : List Z) :
    ((∀ o, Abc.Call.condition o ∉ h) → (Abc.prob P (h.foldl (Abc.after P) s0) z).1 = .error .value ∧
      (Abc.logProb P (h.foldl (Abc.after P) s0) z).1 = .error .value) ∧
    ((∃ o, Abc.Call.condition o ∈ h) → (∀ g w, ∃ rows, (P.genSample none g w).1 = .ok rows) →
      (P.lik ≠ none ∨ P.loglik ≠ none) →
      (∃ v, (Abc.prob P (h.foldl (Abc.after P) s0) z).1 = .ok v) ∧
      ∃ v, (Abc.logProb P (h.foldl (Abc.after P) s0) z).1 = .ok v) := by
  obtain ⟨h1, h2⟩ := Abc.history_o P h s0
  generalize h.foldl (Abc.after P) s0 = s at h1 h2 ⊢
  constructor
  · intro hc
    have := (h1 hc).trans h0
    simp [Abc.prob, Abc.logProb, this]
  · intro hc hg hl
    obtain ⟨o, ho⟩ := Option.ne_none_iff_exists'.1 (h2 hc)
    obtain ⟨rows, hr⟩ := hg (P.genCondition z s.gen) s.world
    have e : Abc.generate P s z = (.ok rows, (Abc.generate P s z).2) := by rw [← hr]; rfl
    simp only [Abc.prob, Abc.logProb, ho]
    rw [e]
    simp only
    cases hll : P.loglik with
    | some f => exact ⟨⟨_, rfl⟩, ⟨_, rfl⟩⟩
    | none =>
      cases hlk : P.lik with
      | some f => exact ⟨⟨_, rfl⟩, ⟨_, rfl⟩⟩
      | none => simp [hll, hlk] at hl

/-- The likelihood functions given describe the likelihood `L`. -/
structure Describes {G E Z W : Type*} (P : Parts G E Z W) (L : List ℝ → List ℝ → ℝ) : Prop where
  nonneg : ∀ o y, 0 ≤ L o y
  lik : ∀ f, P.lik = some f → ∀ o y, f o y = .fin (L o y)
  loglik : ∀ f, P.loglik = some f → ∀ o y, f o y = if L o y = 0 then .ninf else .fin (Real.log (L o y))
  given : P.lik ≠ none ∨ P.loglik ≠ none

/-- `log` of a nonnegative number as the code gets it. -/
private theorem log_fin (l : ℝ) (hl : 0 ≤ l) :
    XF.log (.fin l : XF ℝ) = if l = 0 then .ninf else .fin (Real.log l) := by
  have : ¬ l < 0 := not_lt.2 hl
  by_cases h : l = 0 <;> simp [XF.log, h, this]

private theorem log_add (l : ℝ) (p : XF ℝ) (hp : IsLogDensity p) :
    (if l = 0 then .ninf else .fin (Real.log l) : XF ℝ) + p + 0 =
      if l * densOf p = 0 then .ninf else .fin (Real.log (l * densOf p)) := by
  rcases hp with rfl | ⟨a, rfl⟩
  · have : l * densOf .ninf = 0 := by simp [densOf]
    rw [if_pos this]
    by_cases h : l = 0
    · rw [if_pos h]; rfl
    · rw [if_neg h]; rfl
  · by_cases h : l = 0
    · rw [if_pos h, if_pos (by rw [h, zero_mul])]; rfl
    · have ha : densOf (.fin a) = Real.exp a := by simp [densOf]
      rw [if_neg h, ha, if_neg (mul_ne_zero h (Real.exp_pos a).ne'), Real.log_mul h (Real.exp_pos a).ne', Real.log_exp]
      show XF.fin (Real.log l + a + 0) = _
      rw [add_zero]

private theorem exp_log_mul (l : ℝ) (hl : 0 ≤ l) :
    XF.exp (if l = 0 then .ninf else .fin (Real.log l) : XF ℝ) = .fin l := by
  by_cases h : l = 0
  · rw [if_pos h, h]; simp [XF.exp]
  · rw [if_neg h]; simp [XF.exp, Real.exp_log (lt_of_le_of_ne hl (Ne.symm h))]

private theorem mul_exp (l : ℝ) (p : XF ℝ) (hp : IsLogDensity p) :
    (.fin l : XF ℝ) * XF.exp (p + 0) = .fin (l * densOf p) := by
  rcases hp with rfl | ⟨a, rfl⟩
  · rw [show (XF.ninf + 0 : XF ℝ) = .ninf from rfl]; simp [XF.exp, densOf]
  · rw [show (XF.fin a + 0 : XF ℝ) = .fin (a + 0) from rfl]; simp [XF.exp, densOf]

theorem densOf_nonneg' (p : XF ℝ) (hp : IsLogDensity p) : 0 ≤ densOf p := by
  rcases hp with rfl | ⟨a, rfl⟩ <;> simp [densOf, Real.exp_nonneg]

/-- **C70, posterior.** When the likelihood functions describe the likelihood `L` (one of them, or both consistently),
the prior has log densities, and the generative model simulates one row per latent value, `prob` of a conditioned model is
the likelihood of the simulated output (cut to the length of the observation) times the prior density, and `log_prob`
in the same state is its logarithm (`-inf` for zero). -/
theorem C70_posterior {G E Z W : Type*} (P : Parts G E Z W) (L : List ℝ → List ℝ → ℝ) (hL : Describes P L)
    (hprior : ∀ z, IsLogDensity (P.priorLogProb z)) (s : Abc G E W) (o : List ℝ) (ho : s.o = some o) (z : List Z)
    (rows : List (List ℝ)) (hg : (P.genSample none (P.genCondition z s.gen) s.world).1 = .ok rows) :
    (Abc.prob P s z).1 = .ok (List.zipWith (fun y q => .fin (L o (y.take o.length) * densOf (P.priorLogProb q))) rows z) ∧
    (Abc.logProb P s z).1 = .ok (List.zipWith (fun y q =>
      if L o (y.take o.length) * densOf (P.priorLogProb q) = 0 then .ninf
      else .fin (Real.log (L o (y.take o.length) * densOf (P.priorLogProb q)))) rows z) := by
  have e : Abc.generate P s z = (.ok rows, (Abc.generate P s z).2) := by rw [← hg]; rfl
  have hzip : ∀ f : List ℝ → XF ℝ → XF ℝ, List.zipWith f (rows.map (List.take o.length)) (z.map P.priorLogProb) =
      List.zipWith (fun y q => f (y.take o.length) (P.priorLogProb q)) rows z := by
    intro f; rw [List.zipWith_map]
  have hcongr : ∀ f g : List ℝ → Z → XF ℝ, (∀ y q, f y q = g y q) → List.zipWith f rows z = List.zipWith g rows z := by
    intro f g h
    rw [show f = g from funext fun y => funext (h y)]
  simp only [Abc.prob, Abc.logProb, ho]
  rw [e]
  simp only
  have hn : ∀ (y : List ℝ) (q : Z), 0 ≤ L o (y.take o.length) * densOf (P.priorLogProb q) :=
    fun y q => mul_nonneg (hL.nonneg _ _) (densOf_nonneg' _ (hprior q))
  cases hll : P.loglik with
  | some f =>
    simp only [hzip]
    constructor
    · congr 1
      apply hcongr
      intro y q
      rw [hL.loglik f hll, log_add _ _ (hprior q), exp_log_mul _ (hn y q)]
    · congr 1
      apply hcongr
      intro y q
      rw [hL.loglik f hll, log_add _ _ (hprior q)]
  | none =>
    cases hlk : P.lik with
    | none => rcases hL.given with h | h <;> simp [hll, hlk] at h
    | some f =>
      simp only [hzip]
      constructor
      · congr 1
        apply hcongr
        intro y q
        rw [hL.lik f hlk, mul_exp _ _ (hprior q)]
      · congr 1
        apply hcongr
        intro y q
        rw [hL.lik f hlk, log_fin _ (hL.nonneg _ _), log_add _ _ (hprior q)]

/-- A small ABC model: latent values are numbers, the generative model repeats the latent value, the likelihood is one when
the simulated output equals the observation. -/
noncomputable def toyParts : Parts (List ℝ) Unit ℝ Unit where
  genCondition := fun z _ => z
  genSample := fun _ g w => (.ok (g.map fun q => [q, q]), g, w)
  sensorCondition := fun _ e => e
  sensorSample := fun n e w => (.ok (List.replicate n [0]), e, w)
  priorLogProb := fun _ => .fin 0
  priorSample := fun n w => (List.replicate n 0, w)
  lik := some fun o y => .fin (if o = y then 1 else 0)
  loglik := none

open Classical in
/-- The hypotheses of the two ABC theorems are met by the small model, and conditioning changes the answer. -/
example : Describes toyParts (fun o y => if o = y then 1 else 0) ∧ (∀ z, IsLogDensity (toyParts.priorLogProb z)) ∧
    (∀ g w, ∃ rows, (toyParts.genSample none g w).1 = .ok rows) ∧
    (Abc.prob toyParts (Abc.condition ⟨[], (), none, ()⟩ [2]) [1, 2]).1 = .ok [.fin 0, .fin 1] := by
  refine ⟨⟨?_, ?_, ?_, ?_⟩, fun z => Or.inr ⟨0, rfl⟩, fun g w => ⟨_, rfl⟩, ?_⟩
  · intro o y; split <;> norm_num
  · intro f hf o y
    simp only [toyParts, Option.some.injEq] at hf
    rw [← hf]
  · intro f hf; simp [toyParts] at hf
  · left; simp [toyParts]
  · have := (C70_posterior toyParts (fun o y => if o = y then 1 else 0) ⟨fun o y => by split <;> norm_num,
      fun f hf o y => by simp only [toyParts, Option.some.injEq] at hf; rw [← hf],
      fun f hf => by simp [toyParts] at hf, Or.inl (by simp [toyParts])⟩ (fun z => Or.inr ⟨0, rfl⟩)
      (Abc.condition ⟨[], (), none, ()⟩ [2]) [2] rfl [1, 2] [[1, 1], [2, 2]] rfl).1
    rw [this]
    simp [toyParts, densOf]

/-! ### Noisy function -/

namespace Noisy
variable {d : ℕ} {P W : Type*}

theorem history_x (h : List (Call d P)) : ∀ s : Noisy d P,
    ((∀ x, Call.condition x ∉ h) → (h.foldl after s).x = s.x) ∧
    ((∃ x, Call.condition x ∈ h) → (h.foldl after s).x ≠ none) := by
  induction h with
  | nil => intro s; simp
  | cons c h ih =>
    intro s
    simp only [List.foldl_cons]
    constructor
    · intro hc
      rw [(ih _).1 fun o ho => hc o (by simp [ho])]
      cases c with
      | condition o => exact absurd (by simp) (hc o)
      | _ => rfl
    · rintro ⟨o, hm⟩
      by_cases hh : ∃ o, Call.condition o ∈ h
      · exact (ih _).2 hh
      · rw [(ih _).1 fun o ho => hh ⟨o, ho⟩]
        rcases List.mem_cons.1 hm with rfl | hm
        · simp [after, condition]
        · exact absurd ⟨o, hm⟩ hh

/-- What the object was last conditioned on. -/
def last (h : List (Call d P)) : Option (List (Fin d → ℝ)) :=
  (h.filterMap fun | .condition x => some x | _ => none).getLast?

theorem history_last (h : List (Call d P)) : ∀ s : Noisy d P, s.x = none → (h.foldl after s).x = last h := by
  induction h using List.reverseRecOn with
  | nil => intro s hs; simpa [last] using hs
  | append_singleton h c ih =>
    intro s hs
    rw [List.foldl_append]
    simp only [List.foldl_cons, List.foldl_nil]
    cases c with
    | condition x => simp [after, condition, last]
    | _ => simp [after, setParams, last, ih s hs]

end Noisy

/-- **C70, noisy function.** After any history of calls on a new object, `prob` and `log_prob` raise ValueError if
`condition` was never called; if it was, they return one value per row of every batch that has as many rows as the last
conditioning value, or when one of the two has a single row: the noise density at the differences. -/
theorem C70_noisy {d : ℕ} {P W : Type*} (N : NoisyParts d P W) (s0 : Noisy d P) (h0 : s0.x = none)
    (h : List (Noisy.Call d P)) (y : List (Fin d → ℝ)) :
    ((∀ x, Noisy.Call.condition x ∉ h) → Noisy.prob N (h.foldl Noisy.after s0) y = .error .value ∧
      Noisy.logProb N (h.foldl Noisy.after s0) y = .error .value) ∧
    (∀ x, Noisy.last h = some x → y.length = x.length →
      Noisy.prob N (h.foldl Noisy.after s0) y = .ok (List.zipWith (fun a b => N.noiseProb (a - b)) y x) ∧
      Noisy.logProb N (h.foldl Noisy.after s0) y = .ok (List.zipWith (fun a b => N.noiseLogProb (a - b)) y x)) ∧
    (∀ b, Noisy.last h = some [b] →
      Noisy.prob N (h.foldl Noisy.after s0) y = .ok (y.map fun a => N.noiseProb (a - b)) ∧
      Noisy.logProb N (h.foldl Noisy.after s0) y = .ok (y.map fun a => N.noiseLogProb (a - b))) := by
  have hl := Noisy.history_last h s0 h0
  obtain ⟨h1, -⟩ := Noisy.history_x h s0
  generalize h.foldl Noisy.after s0 = s at hl h1 ⊢
  refine ⟨fun hc => ?_, fun x hx hlen => ?_, fun b hx => ?_⟩
  · have := (h1 hc).trans h0
    simp [Noisy.prob, Noisy.logProb, this]
  · rw [hx] at hl
    simp [Noisy.prob, Noisy.logProb, hl, subRows, hlen, Except.map, List.map_zipWith]
  · rw [hx] at hl
    have : subRows y [b] = .ok (y.map (· - b)) := by
      unfold subRows
      by_cases hy : y.length = [b].length
      · rw [if_pos hy]
        obtain ⟨a, rfl⟩ := List.length_eq_one_iff.1 hy
        rfl
      · rw [if_neg hy]
    simp [Noisy.prob, Noisy.logProb, hl, this, Except.map, List.map_map, Function.comp_def]

/-- The parameters set last, `z` if none were set. -/
def Noisy.lastParams {d : ℕ} {P : Type*} (z : P) (h : List (Noisy.Call d P)) : P :=
  ((h.filterMap fun | .setParams z => some z | _ => none).getLast?).getD z

theorem Noisy.history_params {d : ℕ} {P : Type*} (h : List (Noisy.Call d P)) (s : Noisy d P) :
    (h.foldl Noisy.after s).z = Noisy.lastParams s.z h := by
  induction h using List.reverseRecOn with
  | nil => rfl
  | append_singleton h c ih =>
    rw [List.foldl_append]
    simp only [List.foldl_cons, List.foldl_nil]
    cases c with
    | setParams z => simp [Noisy.after, Noisy.setParams, Noisy.lastParams]
    | condition x => simpa [Noisy.after, Noisy.condition, Noisy.lastParams] using ih
    | _ => simpa [Noisy.after, Noisy.lastParams] using ih

/-- **C70, samples of a noisy function.** After any history of calls on a new object, `sample` raises TypeError if `condition` was
never called; if it was, it returns the function of the last conditioning value and of the parameters set last, plus noise, row by
row. -/
theorem C70_noisy_sample {d : ℕ} {P W : Type*} (N : NoisyParts d P W) (s0 : Noisy d P) (h0 : s0.x = none)
    (h : List (Noisy.Call d P)) (w : W) :
    ((∀ x, Noisy.Call.condition x ∉ h) → (Noisy.sample N (h.foldl Noisy.after s0) w).1 = .error .type) ∧
    (∀ x, Noisy.last h = some x → (N.function x (Noisy.lastParams s0.z h)).length = x.length →
      (N.noiseSample x.length w).1.length = x.length →
      (Noisy.sample N (h.foldl Noisy.after s0) w).1 =
        .ok (List.zipWith (· + ·) (N.function x (Noisy.lastParams s0.z h)) (N.noiseSample x.length w).1)) := by
  have hl := Noisy.history_last h s0 h0
  have hz := Noisy.history_params h s0
  obtain ⟨h1, -⟩ := Noisy.history_x h s0
  generalize h.foldl Noisy.after s0 = s at hl hz h1 ⊢
  refine ⟨fun hc => ?_, fun x hx hf hn => ?_⟩
  · simp [Noisy.sample, (h1 hc).trans h0]
  · rw [hx] at hl
    simp [Noisy.sample, hl, hz, hf, addRows, hn]

/-- Parameters set twice, before and after `condition`: the last ones count. -/
example : Noisy.lastParams (0 : ℕ) [.setParams 1, .condition [![(2 : ℝ)]], .prob, .setParams 5, .sample] = 5 ∧
    Noisy.last (P := ℕ) [.setParams 1, .condition [![(2 : ℝ)]], .prob, .setParams 5, .sample] = some [![2]] := ⟨rfl, rfl⟩

/-! ### Nuisance generator -/

theorem checkShape_idem (d : ℕ) (z : NArr ℝ) (rows : List (Fin d → ℝ)) (h : checkShape d z = .ok rows) :
    checkShape d (.mat d rows : NArr ℝ) = .ok rows := by
  cases z with
  | vec xs =>
    simp only [checkShape] at h
    split at h
    · cases h; simp [checkShape]
    · cases h
  | mat m r =>
    cases r with
    | nil => cases h
    | cons r rs =>
      simp only [checkShape] at h
      split at h
      · rename_i hm
        subst hm
        cases h; simp [checkShape]
      · cases h
  | other => cases h

/-- **C70, nuisance generator.** After any history of calls on a new object, `sample` raises ValueError, and consumes no
randomness, when no `condition` call succeeded; when one did, it returns the output of the generating function on the last
accepted value and `rows * nsamples` fresh nuisance values. -/
theorem C70_nuisance {d : ℕ} {N W R : Type*} (nDist : ℕ → W → List N × W)
    (genF : List (Fin d → ℝ) → List N → Except PyErr R) (h : List Nuisance.Call) (n : ℕ) (w : W) :
    ((∀ z rows, Nuisance.Call.condition z ∈ h → checkShape d z ≠ .ok rows) →
      Nuisance.sample nDist genF (h.foldl Nuisance.after ⟨none⟩) n w = (.error .value, w)) ∧
    (∀ l r z rows, h = l ++ Nuisance.Call.condition z :: r → checkShape d z = .ok rows →
      (∀ z' rows', Nuisance.Call.condition z' ∈ r → checkShape d z' ≠ .ok rows') →
      Nuisance.sample nDist genF (h.foldl Nuisance.after ⟨none⟩) n w =
        (genF rows (nDist (rows.length * n) w).1, (nDist (rows.length * n) w).2)) := by
  have hkeep : ∀ (h : List Nuisance.Call), (∀ z rows, Nuisance.Call.condition z ∈ h → checkShape d z ≠ .ok rows) →
      ∀ s : Nuisance d, h.foldl Nuisance.after s = s := by
    intro h
    induction h with
    | nil => intro _ s; rfl
    | cons c h ih =>
      intro hc s
      have e : Nuisance.after s c = s := by
        cases c with
        | condition z =>
          have := fun rows => hc z rows (by simp)
          simp only [Nuisance.after, Nuisance.condition]
          cases hz : checkShape d z with
          | error e => rfl
          | ok rows => exact absurd hz (this rows)
        | _ => rfl
      rw [List.foldl_cons, e]
      exact ih (fun z rows hm => hc z rows (by simp [hm])) s
  constructor
  · intro hc
    rw [hkeep h hc]
    rfl
  · rintro l r z rows rfl hz hr
    rw [List.foldl_append, List.foldl_cons, hkeep r hr]
    have e := checkShape_idem d z rows hz
    simp only [Nuisance.after, Nuisance.condition, hz, Nuisance.sample, e]

/-! ### What does not hold -/

/-- **C70 refuted.** The full statement fails three ways. An ABC model samples without having been conditioned. A noisy
function that was not conditioned raises TypeError, not ValueError, when sampled, and one that was conditioned still raises
ValueError on a batch whose row count does not match. A nuisance generator is evaluated without having been conditioned. -/
theorem C70_refuted :
    (∃ rows, (Abc.sample toyParts ⟨[], (), none, ()⟩ 3).1 = .ok rows) ∧
    (∀ (d : ℕ) (P W : Type) (N : NoisyParts d P W) (z : P) (w : W), (Noisy.sample N ⟨none, z⟩ w).1 = .error .type) ∧
    (∀ (d : ℕ) (P W : Type) (N : NoisyParts d P W) (z : P) (a b c e g : Fin d → ℝ),
      Noisy.prob N (Noisy.condition ⟨none, z⟩ [a, b]) [c, e, g] = .error .value) ∧
    (∀ (d : ℕ) (rows : List (Fin d → ℝ)), Nuisance.prob (⟨none⟩ : Nuisance d) (.mat d rows) = .ok (rows.map fun _ => 1)) := by
  refine ⟨⟨_, rfl⟩, fun d P W N z w => rfl, fun d P W N z a b c e g => ?_, fun d rows => ?_⟩
  · rfl
  · simp [Nuisance.prob]

/-! ### Values of a noisy function -/

/-- What a user expects of a noisy function conditioned on `x`: the value reported for its own samples is the noise density
of the noise that was added. -/
def ReportsNoise {d : ℕ} {P W : Type*} (N : NoisyParts d P W) (s : Noisy d P) : Prop :=
  ∀ x w, s.x = some x → (N.noiseSample x.length w).1.length = x.length → (N.function x s.z).length = x.length →
    ∃ ys, (Noisy.sample N s w).1 = .ok ys ∧ Noisy.prob N s ys = .ok ((N.noiseSample x.length w).1.map N.noiseProb)

/-- **C93, part.** It holds when the function is the identity. Missing: every other function. -/
theorem C93_partial {d : ℕ} {P W : Type*} (N : NoisyParts d P W) (hid : ∀ x z, N.function x z = x) (s : Noisy d P) :
    ReportsNoise N s := by
  intro x w hx hn hf
  unfold Noisy.sample Noisy.prob
  rw [hx]
  simp only [hid, if_true]
  generalize (N.noiseSample x.length w).1 = noise at hn ⊢
  refine ⟨List.zipWith (· + ·) x noise, by simp [addRows, hn], ?_⟩
  have hl : (List.zipWith (· + ·) x noise).length = x.length := by simp [hn]
  simp only [subRows, hl, if_true, Except.map]
  congr 2
  clear hx hf hl
  induction x generalizing noise with
  | nil => simpa using hn
  | cons a x ih =>
    cases noise with
    | nil => simp at hn
    | cons b noise =>
      simp only [List.zipWith_cons_cons, add_sub_cancel_left]
      rw [ih noise (by simpa using hn)]

/-- **C93** A noise model that produces one row whatever it is asked for: that row is added to the value of the function at
every conditioning value, and with the identity as function the density reported for each sample is that of this row. -/
theorem C93_single_noise {d : ℕ} {P W : Type*} (N : NoisyParts d P W) (s : Noisy d P) (x : List (Fin d → ℝ)) (w : W)
    (e : Fin d → ℝ) (hx : s.x = some x) (hne : x ≠ []) (hn : (N.noiseSample x.length w).1 = [e])
    (hf : (N.function x s.z).length = x.length) :
    (Noisy.sample N s w).1 = .ok ((N.function x s.z).map (· + e)) ∧
    (N.function x s.z = x →
      Noisy.prob N s ((N.function x s.z).map (· + e)) = .ok (List.replicate x.length (N.noiseProb e))) := by
  constructor
  · unfold Noisy.sample
    rw [hx]
    simp only [hf, if_true, hn]
    generalize N.function x s.z = fx at hf ⊢
    match fx, hf with
    | [], hf => exact absurd (List.length_eq_zero_iff.mp hf.symm) hne
    | [a], _ => rfl
    | a :: b :: l, _ => simp [addRows]
  · intro hid
    unfold Noisy.prob
    rw [hx, hid]
    simp only [subRows, List.length_map, if_true, Except.map]
    congr 1
    clear hx hne hn hf hid
    induction x with
    | nil => rfl
    | cons a x ih => simp [List.replicate_succ] at ih ⊢; exact ih

example : (Noisy.sample { (⟨fun x _ => x, fun _ w => ([fun _ => 3], w), fun _ => .fin 0, fun _ => .fin 1⟩ : NoisyParts 1 Unit Unit) with }
    (Noisy.condition ⟨none, ()⟩ [fun _ => 1, fun _ => 2]) ()).1 = .ok [(fun _ => 1) + (fun _ => 3), (fun _ => 2) + fun _ => 3] :=
  (C93_single_noise _ _ [fun _ => 1, fun _ => 2] () (fun _ => 3) rfl (by simp) rfl rfl).1

/-- A function that doubles its argument, with noise that is always zero. -/
noncomputable def doubler : NoisyParts 1 Unit Unit where
  function := fun x _ => x.map fun v => v + v
  noiseSample := fun n w => (List.replicate n 0, w)
  noiseLogProb := fun v => if v = 0 then .fin 0 else .ninf
  noiseProb := fun v => if v = 0 then .fin 1 else .fin 0

/-- **C93 refuted.** The values are those of the difference to the conditioning value, not to the function of it: a
doubler conditioned on 1 produces 2 and reports density 0 for it. -/
theorem C93_refuted : ¬ ReportsNoise doubler (Noisy.condition ⟨none, ()⟩ [fun _ => 1]) := by
  intro h
  obtain ⟨ys, h1, h2⟩ := h [fun _ => 1] () rfl (by simp [doubler]) (by simp [doubler])
  have e : ys = [fun _ => (2 : ℝ)] := by
    have : (Noisy.sample doubler (Noisy.condition ⟨none, ()⟩ [fun _ => 1]) ()).1 = .ok [fun _ => (2 : ℝ)] := by
      simp only [Noisy.sample, Noisy.condition, doubler, addRows]
      simp
      funext i
      simp
      norm_num
    rw [this] at h1
    exact (Except.ok.inj h1).symm
  rw [e] at h2
  simp only [Noisy.prob, Noisy.condition, doubler, subRows, Except.map] at h2
  have hne : ((fun _ => 2 : Fin 1 → ℝ) - fun _ => 1) ≠ 0 := by
    intro h
    have := congrFun h 0
    norm_num at this
  simp [hne] at h2

/-- The identity of the partial theorem is a real case, and the three noisy and nuisance theorems have real histories. -/
example : ∃ N : NoisyParts 1 Unit Unit, (∀ x z, N.function x z = x) ∧
    ReportsNoise N (Noisy.condition ⟨none, ()⟩ [fun _ => 1]) :=
  ⟨{ doubler with function := fun x _ => x }, fun _ _ => rfl, C93_partial _ (fun _ _ => rfl) _⟩

example : Noisy.last [Noisy.Call.condition [fun _ : Fin 1 => (1 : ℝ)], .prob, .setParams (), .sample] =
    some [fun _ => 1] := rfl

example : ∃ rows, checkShape 2 (.vec [1, 2] : NArr ℝ) = .ok rows ∧ rows.length = 1 := ⟨_, rfl, rfl⟩

end Derived
end Verif
