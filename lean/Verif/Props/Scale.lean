import Verif.Model.AIS
import Verif.Model.MPMC
import Verif.Model.MH
import Verif.Model.Nested
import Verif.Model.MultiNested
import Mathlib.Tactic.Linarith
import Mathlib.Tactic.Positivity
import Mathlib.Tactic.FieldSimp

/-!
# C151: results do not depend on the normalisation of the target

Two samplers are given the same random outcomes and clock readings; one of them sees the density `p`, the other one `c * p`
with a constant `c > 0` (as log density: `log p + b`).
-/

set_option linter.unusedSectionVars false
set_option autoImplicit false

namespace Verif

/-! ### Specification -/

/-- What a caller sees of a call: how it ended, and a view of the object at that time. -/
def Out.view {σ τ : Type*} (f : σ → τ) : Out σ → Out τ
  | .done s => .done (f s)
  | .raised e s => .raised e (f s)
  | .running s => .running (f s)

/-- Several calls of the same object one after the other; the list of what a caller sees after each. -/
def session {σ κ τ : Type*} (call : κ → σ → Out σ) (see : σ → τ) : List κ → σ → List (Out τ)
  | [], _ => []
  | k :: ks, s => (call k s).view see :: session call see ks (call k s).state

/-! ### Arithmetic -/

section arith
variable {K : Type*} [Field K] [LinearOrder K] [IsStrictOrderedRing K] {c : K}

theorem XF.scale_infMul (hc : 0 < c) (a : K) : XF.infMul (c * a) = XF.infMul a := by
  unfold XF.infMul
  simp only [mul_pos_iff_of_pos_left hc, mul_neg_iff, hc, not_lt_of_gt hc, true_and, false_and, or_false]

theorem XF.fin_mul_pinf (hc : 0 < c) : (XF.fin c * XF.pinf : XF K) = XF.pinf := by
  show XF.infMul c = _
  rw [XF.infMul, if_pos hc]

theorem XF.fin_mul_ninf (hc : 0 < c) : (XF.fin c * XF.ninf : XF K) = XF.ninf := by
  show XF.neg (XF.infMul c) = _
  rw [XF.infMul, if_pos hc]
  rfl

theorem XF.fin_mul_infMul (hc : 0 < c) (a : K) : XF.fin c * XF.infMul a = XF.infMul a := by
  unfold XF.infMul
  split
  · exact fin_mul_pinf hc
  · split
    · exact fin_mul_ninf hc
    · rfl

theorem XF.scale_add (hc : 0 < c) (a b : XF K) : XF.fin c * (a + b) = XF.fin c * a + XF.fin c * b := by
  cases a <;> cases b <;> simp only [XF.fin_add, XF.fin_mul, XF.fin_mul_pinf hc, XF.fin_mul_ninf hc, XF.nan_add, XF.add_nan, XF.mul_nan, mul_add] <;>
    first | rfl | (first | exact XF.fin_mul_pinf hc | exact XF.fin_mul_ninf hc)

theorem XF.scale_sum (hc : 0 < c) (l : List (XF K)) : (l.map fun w => XF.fin c * w).sum = XF.fin c * l.sum := by
  induction l with
  | nil => simp
  | cons a l ih => rw [List.map_cons, List.sum_cons, List.sum_cons, ih, scale_add hc]

theorem XF.scale_div (hc : 0 < c) (a b : XF K) : XF.fin c * a / b = XF.fin c * (a / b) := by
  cases a with
  | nan => simp
  | fin x =>
    cases b with
    | nan => simp
    | fin y =>
      rw [XF.fin_mul, XF.fin_div, XF.fin_div]
      split
      · rw [scale_infMul hc, fin_mul_infMul hc]
      · rw [XF.fin_mul, mul_div_assoc]
    | pinf => show XF.fin 0 = XF.fin c * XF.fin 0; simp
    | ninf => show XF.fin 0 = XF.fin c * XF.fin 0; simp
  | pinf =>
    rw [fin_mul_pinf hc]
    cases b with
    | nan => simp
    | fin y =>
      show (if y < 0 then XF.ninf else XF.pinf) = XF.fin c * (if y < 0 then XF.ninf else XF.pinf)
      split <;> simp [fin_mul_pinf hc, fin_mul_ninf hc]
    | pinf => rfl
    | ninf => rfl
  | ninf =>
    rw [fin_mul_ninf hc]
    cases b with
    | nan => simp
    | fin y =>
      show (if y < 0 then XF.pinf else XF.ninf) = XF.fin c * (if y < 0 then XF.pinf else XF.ninf)
      split <;> simp [fin_mul_pinf hc, fin_mul_ninf hc]
    | pinf => rfl
    | ninf => rfl

theorem XF.scale_cancel (hc : 0 < c) (a b : XF K) : (XF.fin c * a) / (XF.fin c * b) = a / b := by
  cases b with
  | nan => simp
  | pinf =>
    rw [fin_mul_pinf hc]
    cases a <;> simp only [fin_mul_pinf hc, fin_mul_ninf hc, XF.fin_mul, XF.mul_nan] <;> rfl
  | ninf =>
    rw [fin_mul_ninf hc]
    cases a <;> simp only [fin_mul_pinf hc, fin_mul_ninf hc, XF.fin_mul, XF.mul_nan] <;> rfl
  | fin y =>
    have hy : c * y < 0 ↔ y < 0 := by simp [mul_neg_iff, hc, not_lt_of_gt hc]
    cases a with
    | nan => simp
    | fin x =>
      rw [XF.fin_mul, XF.fin_mul, XF.fin_div, XF.fin_div]
      by_cases h : y = 0
      · rw [if_pos h, if_pos (by rw [h, mul_zero]), scale_infMul hc]
      · rw [if_neg h, if_neg (mul_ne_zero hc.ne' h), mul_div_mul_left _ _ hc.ne']
    | pinf =>
      rw [fin_mul_pinf hc, XF.fin_mul]
      show (if c * y < 0 then XF.ninf else XF.pinf) = if y < 0 then XF.ninf else XF.pinf
      simp only [hy]
    | ninf =>
      rw [fin_mul_ninf hc, XF.fin_mul]
      show (if c * y < 0 then XF.pinf else XF.ninf) = if y < 0 then XF.pinf else XF.ninf
      simp only [hy]

end arith

/-! ### Loops -/

section loops
variable {σ τ ι κ : Type*}

theorem Out.view_id (o : Out σ) : o.view id = o := by cases o <;> rfl

theorem Out.view_view {υ : Type*} (f : σ → τ) (g : τ → υ) (o : Out σ) : (o.view f).view g = o.view (g ∘ f) := by cases o <;> rfl

theorem Out.view_state (f : σ → τ) (o : Out σ) : (o.view f).state = f o.state := by cases o <;> rfl

theorem whileScript_view (f : σ → τ) {cond : σ → Bool} {cond' : τ → Bool} {late : ι → Bool} {body : ι → σ → σ × Option PyErr}
    {body' : ι → τ → τ × Option PyErr} (hc : ∀ s, cond' (f s) = cond s)
    (hb : ∀ it s, body' it (f s) = (f (body it s).1, (body it s).2)) : ∀ (script : List ι) (ex : Bool) (s : σ),
    whileScript cond' late body' ex script (f s) = (whileScript cond late body ex script s).view f
  | [], ex, s => by
    unfold whileScript
    rw [hc]
    split <;> rfl
  | it :: rest, ex, s => by
    unfold whileScript
    rw [hc]
    split
    · rw [hb]
      cases h : body it s with
      | mk s' e =>
        cases e with
        | none => exact whileScript_view f hc hb rest (late it) s'
        | some e => rfl
    · rfl

theorem forN_view (f : σ → τ) {g : ℕ → σ → Out σ} {g' : ℕ → τ → Out τ} (hg : ∀ i s, g' i (f s) = (g i s).view f) :
    ∀ (n : ℕ) (s : σ), forN g' n (f s) = (forN g n s).view f
  | 0, _ => rfl
  | n + 1, s => by
    unfold forN
    rw [forN_view f hg n s]
    cases forN g n s with
    | done s' => exact hg n s'
    | raised e s' => rfl
    | running s' => rfl

theorem session_view (f : σ → σ) (see : σ → τ) (hsee : ∀ s, see (f s) = see s) {call call' : κ → σ → Out σ}
    (h : ∀ k s, call' k (f s) = (call k s).view f) : ∀ (ks : List κ) (s : σ), session call' see ks (f s) = session call see ks s
  | [], _ => rfl
  | k :: ks, s => by
    have e : see ∘ f = see := funext hsee
    rw [session, session, h, Out.view_view, e, Out.view_state, session_view f see hsee h ks]

end loops

/-! ### DM-AIS and layered AIS -/

section ais
variable {K : Type*} [Field K] [LinearOrder K] [IsStrictOrderedRing K] {d : ℕ}

/-- The sampler with all weights multiplied by `c`. -/
def AIS.scaled (c : K) (S : AIS K d) : AIS K d := { S with weights := S.weights.map fun w => XF.fin c * w }

theorem AIS.weigh_scale {c : K} (hc : 0 < c) (q : (Fin d → K) → (Fin d → K) → XF K) (p : (Fin d → K) → XF K) (S : AIS K d)
    (x : Fin d → K) : S.weigh q (fun y => XF.fin c * p y) x = XF.fin c * S.weigh q p x := XF.scale_div hc _ _

theorem AIS.returned_scale {c : K} (hc : 0 < c) (S : AIS K d) : (S.scaled c).returned = S.returned := by
  unfold AIS.returned AIS.scaled
  dsimp only
  rw [XF.scale_sum hc, List.map_map]
  congr 1
  apply List.map_congr_left
  intro w _
  exact XF.scale_cancel hc _ _

theorem DM.body_scale {c : K} (hc : 0 < c) (N k : ℕ) (q : (Fin d → K) → (Fin d → K) → XF K) (p : (Fin d → K) → XF K)
    (it : DM.Iter K d) (S : AIS K d) :
    DM.body N k q (fun x => XF.fin c * p x) it (S.scaled c) = ((DM.body N k q p it S).1.scaled c, (DM.body N k q p it S).2) := by
  unfold DM.body
  dsimp only
  split
  · rfl
  · have hw : ∀ l : List (Fin d → K), l.map (AIS.weigh q (fun x => XF.fin c * p x) { S.scaled c with numQ := (S.scaled c).numQ + N * k }) =
        (l.map (AIS.weigh q p { S with numQ := S.numQ + N * k })).map fun w => XF.fin c * w := by
      intro l
      rw [List.map_map]
      apply List.map_congr_left
      intro x _
      rw [AIS.weigh_scale hc]
      rfl
    rw [hw]
    generalize (AIS.batch N k it.pts).map (AIS.weigh q p { S with numQ := S.numQ + N * k }) = ws
    unfold DM.resample
    rw [XF.scale_sum hc, List.map_map]
    have he : (ws.map ((fun w => w / (XF.fin c * ws.sum)) ∘ fun w => XF.fin c * w)) = ws.map fun w => w / ws.sum := by
      apply List.map_congr_left
      intro w _
      exact XF.scale_cancel hc _ _
    rw [he]
    cases DM.pvals (ws.map fun w => w / ws.sum) with
    | error e => rfl
    | ok ps =>
      simp only [AIS.scaled, List.map_append]

theorem LAIS.mcmcMh_scale {c : K} (hc : 0 < c) (lo hi : Fin d → K) (p : (Fin d → K) → XF K) :
    LAIS.mcmcMh lo hi (fun x => XF.fin c * p x) = LAIS.mcmcMh lo hi p := by
  funext L move alpha x
  unfold LAIS.mcmcMh LAIS.mhStep
  simp only [XF.scale_cancel hc]

theorem LAIS.body_scale {c : K} (hc : 0 < c) (N k L : ℕ) (lo hi : Fin d → K) (q : (Fin d → K) → (Fin d → K) → XF K)
    (p : (Fin d → K) → XF K) (it : LAIS.Iter K d) (S : AIS K d) :
    LAIS.body N k L lo hi q (fun x => XF.fin c * p x) it (S.scaled c) =
      ((LAIS.body N k L lo hi q p it S).1.scaled c, (LAIS.body N k L lo hi q p it S).2) := by
  unfold LAIS.body
  dsimp only
  split
  · rfl
  · have hw : ∀ l : List (Fin d → K), l.map (AIS.weigh q (fun x => XF.fin c * p x) { S.scaled c with numQ := (S.scaled c).numQ + N * k }) =
        (l.map (AIS.weigh q p { S with numQ := S.numQ + N * k })).map fun w => XF.fin c * w := by
      intro l
      rw [List.map_map]
      apply List.map_congr_left
      intro x _
      rw [AIS.weigh_scale hc]
      rfl
    rw [hw]
    unfold LAIS.resample
    rw [LAIS.mcmcMh_scale hc]
    simp only [AIS.scaled, List.map_append]

/-- What a caller sees of a DM-AIS or layered AIS object: samples and weights as returned, the proposals and the counters. -/
def AIS.seen (S : AIS K d) : (List (Fin d → K) × List (XF K)) × List (Fin d → K) × List (XF K) × ℕ × ℕ × ℕ :=
  (S.returned, S.centers, S.modelWeights, S.numPi, S.numQEval, S.numQ)

/-- **C151** for DM-AIS: after every call of a session the two samplers have returned the same samples and the same weights, hold
the same proposals and the same counters, or raised the same exception. A call is given by the number of samples asked for, the
clock and the random outcomes. -/
theorem C151_dm {c : K} (hc : 0 < c) (N k : ℕ) (q : (Fin d → K) → (Fin d → K) → XF K) (p : (Fin d → K) → XF K)
    (lo hi : Fin d → K) (u : ℕ → Fin d → K) (S : AIS K d) (hS : AIS.reset N lo hi u = .ok S)
    (calls : List (ℕ × Bool × List (DM.Iter K d))) :
    session (fun a => DM.importanceSample N k q (fun x => XF.fin c * p x) a.1 a.2.1 a.2.2) AIS.seen calls S =
      session (fun a => DM.importanceSample N k q p a.1 a.2.1 a.2.2) AIS.seen calls S := by
  have h0 : S.scaled c = S := by
    unfold AIS.reset at hS
    split at hS
    · cases hS
    · cases hw : setWeights N (List.replicate N (XF.fin (1 / (N : K)))) with
      | error e => rw [hw] at hS; cases hS
      | ok w => rw [hw] at hS; cases hS; rfl
  conv_lhs => rw [← h0]
  refine session_view (AIS.scaled c) AIS.seen (fun S => ?_) (fun a S => ?_) calls S
  · unfold AIS.seen
    rw [AIS.returned_scale hc]
    rfl
  · exact whileScript_view (AIS.scaled c) (fun _ => rfl) (fun it S => DM.body_scale hc N k q p it S) _ _ _

/-- **C151** for layered AIS. -/
theorem C151_lais {c : K} (hc : 0 < c) (N k L : ℕ) (q : (Fin d → K) → (Fin d → K) → XF K) (p : (Fin d → K) → XF K)
    (lo hi : Fin d → K) (u : ℕ → Fin d → K) (S : AIS K d) (hS : AIS.reset N lo hi u = .ok S)
    (calls : List (ℕ × Bool × List (LAIS.Iter K d))) :
    session (fun a => LAIS.importanceSample N k L lo hi q (fun x => XF.fin c * p x) a.1 a.2.1 a.2.2) AIS.seen calls S =
      session (fun a => LAIS.importanceSample N k L lo hi q p a.1 a.2.1 a.2.2) AIS.seen calls S := by
  have h0 : S.scaled c = S := by
    unfold AIS.reset at hS
    split at hS
    · cases hS
    · cases hw : setWeights N (List.replicate N (XF.fin (1 / (N : K)))) with
      | error e => rw [hw] at hS; cases hS
      | ok w => rw [hw] at hS; cases hS; rfl
  conv_lhs => rw [← h0]
  refine session_view (AIS.scaled c) AIS.seen (fun S => ?_) (fun a S => ?_) calls S
  · unfold AIS.seen
    rw [AIS.returned_scale hc]
    rfl
  · exact whileScript_view (AIS.scaled c) (fun _ => rfl) (fun it S => LAIS.body_scale hc N k L lo hi q p it S) _ _ _

end ais

/-! ### M-PMC -/

theorem XF.exp_shift (b : ℝ) (t l : XF ℝ) : XF.exp (t + XF.fin b - l) = XF.fin (Real.exp b) * XF.exp (t - l) := by
  have hb := Real.exp_pos b
  cases t <;> cases l <;> first
    | (show XF.fin (Real.exp _) = XF.fin (_ * Real.exp _); rw [← Real.exp_add]; congr 2; ring)
    | rfl
    | (show XF.pinf = _; exact (XF.fin_mul_pinf hb).symm)
    | (show XF.fin 0 = XF.fin (_ * 0); rw [mul_zero])

theorem PMC.rowsOf_shift {d N : ℕ} (b : ℝ) (p : (Fin d → XF ℝ) → XF ℝ) (S : PMC d N) (new : List (Fin d → XF ℝ)) :
    PMC.rowsOf (fun x => p x + XF.fin b) S new = PMC.rowsOf p S new := by
  have hb := Real.exp_pos b
  have hr : PMC.rawWeight (fun x => p x + XF.fin b) S = fun x => XF.fin (Real.exp b) * PMC.rawWeight p S x := by
    funext x
    exact XF.exp_shift b _ _
  unfold PMC.rowsOf
  rw [hr]
  have hs : (new.map fun x => XF.fin (Real.exp b) * PMC.rawWeight p S x).sum = XF.fin (Real.exp b) * (new.map (PMC.rawWeight p S)).sum := by
    rw [← XF.scale_sum hb, List.map_map]
    rfl
  rw [hs]
  simp only [XF.scale_cancel hb]

/-- **C151** for M-PMC, whose target is a log density: the two samplers are in the same state after every call, from any state. -/
theorem C151_mpmc {d N : ℕ} (b : ℝ) (k : ℕ) (p : (Fin d → XF ℝ) → XF ℝ) (calls : List (ℕ × Bool × List (PMC.Iter d))) (S : PMC d N) :
    session (fun a => PMC.importanceSample k (fun x => p x + XF.fin b) a.1 a.2.1 a.2.2) id calls S =
      session (fun a => PMC.importanceSample k p a.1 a.2.1 a.2.2) id calls S := by
  have h : PMC.body (N := N) k (fun x => p x + XF.fin b) = PMC.body k p := by
    funext it S
    unfold PMC.body
    simp only [PMC.rowsOf_shift]
  unfold PMC.importanceSample
  rw [h]

/-! ### Metropolis-Hastings -/

theorem XF.sub_shift (b : ℝ) (s t : XF ℝ) : s + XF.fin b - (t + XF.fin b) = s - t := by
  cases s <;> cases t <;> first
    | rfl
    | (show XF.fin (_ + -_) = XF.fin (_ + -_); congr 1; ring)

theorem MHast.tryBody_shift {d : ℕ} (b : ℝ) (c : MHast.Cfg d) :
    MHast.tryBody { c with target := fun x => c.target x + XF.fin b } = MHast.tryBody c := by
  funext x t p
  unfold MHast.tryBody MHast.accepts MHast.alpha
  simp only [XF.sub_shift]
  rfl

theorem MHast.body_shift {d : ℕ} (b : ℝ) (c : MHast.Cfg d) :
    MHast.body { c with target := fun x => c.target x + XF.fin b } = MHast.body c := by
  have h1 : MHast.mcmcStep { c with target := fun x => c.target x + XF.fin b } = MHast.mcmcStep c := by
    funext x env S
    unfold MHast.mcmcStep
    rw [MHast.tryBody_shift]
  have h2 : MHast.advance { c with target := fun x => c.target x + XF.fin b } = MHast.advance c := by
    funext l env S
    unfold MHast.advance
    rw [h1]
  have h3 : MHast.mcmcIter { c with target := fun x => c.target x + XF.fin b } = MHast.mcmcIter c := by
    funext env p
    unfold MHast.mcmcIter
    rw [h2]
  have h4 : MHast.burnIn { c with target := fun x => c.target x + XF.fin b } = MHast.burnIn c := by
    funext burn S
    unfold MHast.burnIn
    rw [h2]
  funext it S
  unfold MHast.body MHast.sample MHast.sampleIter MHast.mcmc
  rw [h3, h4]

/-- **C151** for Metropolis-Hastings: the two samplers are in the same state after every call, from any state. -/
theorem C151_mh {d : ℕ} (b : ℝ) (c : MHast.Cfg d) (calls : List (ℕ × Bool × List (MHast.Iter d) × (ℕ → ℕ))) (S : MHast.MH d) :
    session (fun a => MHast.importanceSample { c with target := fun x => c.target x + XF.fin b } a.1 a.2.1 a.2.2.1 a.2.2.2) id calls S =
      session (fun a => MHast.importanceSample c a.1 a.2.1 a.2.2.1 a.2.2.2) id calls S := by
  unfold MHast.importanceSample
  rw [MHast.body_shift]

/-! ### Nested sampling -/

namespace Nested
variable {d : ℕ}

/-- The sampler with all likelihoods multiplied by `a`. -/
def scaled (a : ℝ) (S : Nest d) : Nest d := { S with L := S.L.map (a * ·) }

theorem samples_scaled (a : ℝ) (S : Nest d) : (scaled a S).samples = S.samples := rfl

theorem addSample_scaled (a : ℝ) (k : ℕ) (S : Nest d) : addSample k (scaled a S) = scaled a (addSample k S) := by
  unfold addSample
  rw [samples_scaled]
  split <;> rfl

theorem minOf_scaled {a : ℝ} (ha : 0 < a) : ∀ (vs : List ℝ) (v : ℝ), minOf (a * v) (vs.map (a * ·)) = a * minOf v vs
  | [], _ => rfl
  | w :: vs, v => by
    have := minOf_scaled ha vs (min v w)
    unfold minOf at this ⊢
    rw [List.map_cons, List.foldl_cons, List.foldl_cons, ← mul_min_of_nonneg _ _ ha.le, this]

theorem idxOf_scaled {a : ℝ} (ha : 0 < a) (m : ℝ) : ∀ vs : List ℝ, (vs.map (a * ·)).idxOf (a * m) = vs.idxOf m
  | [] => rfl
  | v :: vs => by
    rw [List.map_cons, List.idxOf_cons, List.idxOf_cons, idxOf_scaled ha m vs]
    have : (a * v == a * m) = (v == m) := by
      by_cases h : v = m
      · simp [h]
      · have h' : a * v ≠ a * m := fun e => h (mul_left_cancel₀ ha.ne' e)
        rw [beq_eq_false_iff_ne.2 h, beq_eq_false_iff_ne.2 h']
    rw [this]

theorem mapIdx_of_map {α β γ : Type*} (f : α → β) (g : ℕ → β → γ) (l : List α) : (l.map f).mapIdx g = l.mapIdx fun i x => g i (f x) := by
  apply List.ext_getElem
  · simp
  · intro i h1 h2
    simp

theorem finalWeights_scaled {a : ℝ} (ha : 0 < a) (N : ℕ) (L : List ℝ) : finalWeights N (L.map (a * ·)) = finalWeights N L := by
  have hZ : Z N (L.map (a * ·)) = a * Z N L := by
    unfold Z
    have h := List.sum_map_mul_left (L.mapIdx fun i l => l * W N i) id a
    rw [List.map_id] at h
    simp only [id] at h
    rw [← h, mapIdx_of_map]
    congr 1
    apply List.ext_getElem
    · simp
    · intro i h1 h2
      simp [mul_assoc]
  unfold finalWeights
  rw [hZ, mapIdx_of_map]
  congr 1
  funext i l
  have := XF.scale_cancel ha (XF.fin (l * W N i)) (XF.fin (Z N L))
  rw [XF.fin_mul, XF.fin_mul] at this
  rw [← this, mul_assoc]

/-- The local state of an iteration scaled. -/
def scaled2 (a : ℝ) (p : Nest d × List ℝ) : Nest d × List ℝ := (scaled a p.1, p.2.map (a * ·))

theorem resample_scaled {a : ℝ} (ha : 0 < a) (c : Cfg d) (x : Fin d → ℝ) (v : ℝ) (e : Env d) (S : Nest d) :
    resample { c with target := fun x => a * c.target x } x (a * v) e (scaled a S) =
      (resample c x v e S).view fun p => (scaled a p.1, p.2.1, a * p.2.2) := by
  unfold resample
  exact whileScript_view (fun p : Nest d × (Fin d → ℝ) × ℝ => (scaled a p.1, p.2.1, a * p.2.2))
    (cond := fun p => decide (p.2.2 < v)) (cond' := fun p => decide (p.2.2 < a * v))
    (fun p => by simp only [mul_lt_mul_iff_right₀ ha]) (fun t p => rfl) e.tries e.expired (count S, _, _)

theorem step_scaled {a : ℝ} (ha : 0 < a) (c : Cfg d) (e : Env d) (p : Nest d × List ℝ) :
    step { c with target := fun x => a * c.target x } e (scaled2 a p) = (step c e p).view (scaled2 a) := by
  obtain ⟨S, vs⟩ := p
  cases vs with
  | nil => rfl
  | cons v vs =>
    show step { c with target := fun x => a * c.target x } e (scaled a S, a * v :: vs.map (a * ·)) = _
    unfold step
    dsimp only
    have hi : (a * v :: vs.map (a * ·)).idxOf (a * minOf v vs) = (v :: vs).idxOf (minOf v vs) := idxOf_scaled ha _ (v :: vs)
    rw [minOf_scaled ha, hi, addSample_scaled]
    have hl : ({ scaled a (addSample ((v :: vs).idxOf (minOf v vs)) S) with
        L := (scaled a (addSample ((v :: vs).idxOf (minOf v vs)) S)).L ++ [a * minOf v vs] } : Nest d) =
        scaled a { addSample ((v :: vs).idxOf (minOf v vs)) S with L := (addSample ((v :: vs).idxOf (minOf v vs)) S).L ++ [minOf v vs] } := by
      simp [scaled]
    rw [hl, resample_scaled ha]
    generalize hS1 : ({ addSample ((v :: vs).idxOf (minOf v vs)) S with L := (addSample ((v :: vs).idxOf (minOf v vs)) S).L ++ [minOf v vs] } : Nest d) = S1
    have hlive : (scaled a (addSample ((v :: vs).idxOf (minOf v vs)) S)).live = (addSample ((v :: vs).idxOf (minOf v vs)) S).live := rfl
    rw [hlive]
    cases resample c ((addSample ((v :: vs).idxOf (minOf v vs)) S).live.getD (e.r % (addSample ((v :: vs).idxOf (minOf v vs)) S).live.length) 0)
        (minOf v vs) e S1 with
    | running p => rfl
    | raised err p => rfl
    | done p =>
      simp only [Out.view, scaled2, List.map_set, ← List.map_cons (f := (a * ·))]
      rfl

theorem finish_scaled (a : ℝ) (nKde : ℕ) (idx : ℕ → ℕ) (w : List (XF ℝ)) (T : Nest d) :
    (match MHast.updateModel nKde idx ({ scaled a T with weights := w } : Nest d).samples with
      | .error e => Out.raised e ({ scaled a T with weights := w } : Nest d)
      | .ok m => .done { scaled a T with weights := w, kde := some m }) =
    Out.view (scaled a) (match MHast.updateModel nKde idx ({ T with weights := w } : Nest d).samples with
      | .error e => Out.raised e ({ T with weights := w } : Nest d)
      | .ok m => .done { T with weights := w, kde := some m }) := by
  have h1 : ({ scaled a T with weights := w } : Nest d).samples = T.samples := rfl
  have h2 : ({ T with weights := w } : Nest d).samples = T.samples := rfl
  rw [h1, h2]
  cases MHast.updateModel nKde idx T.samples <;> rfl

end Nested

/-- What a caller sees of a nested sampling object: everything but the likelihoods. -/
def Nested.seen {d : ℕ} (S : Nested.Nest d) : List (Fin d → ℝ) × List (Fin d → ℝ) × List (XF ℝ) × Option (List (Fin d → ℝ)) × ℕ × ℕ × ℕ :=
  (S.samples, S.live, S.weights, S.kde, S.numPi, S.numQEval, S.numQ)

/-- **C151** for nested sampling, from a new sampler. -/
theorem C151_nested {d : ℕ} {a : ℝ} (ha : 0 < a) (c : Nested.Cfg d) (us : Fin c.N → Fin d → ℝ)
    (calls : List (ℕ × (ℕ → Nested.Env d) × (ℕ → ℕ))) :
    session (fun k => Nested.importanceSample { c with target := fun x => a * c.target x } k.1 k.2.1 k.2.2) Nested.seen calls (Nested.reset c us) =
      session (fun k => Nested.importanceSample c k.1 k.2.1 k.2.2) Nested.seen calls (Nested.reset c us) := by
  have h0 : Nested.scaled a (Nested.reset c us) = Nested.reset c us := rfl
  conv_lhs => rw [← h0]
  refine session_view (Nested.scaled a) Nested.seen (fun _ => rfl) (fun k S => ?_) calls _
  unfold Nested.importanceSample
  have hl : S.live.map (fun x => a * c.target x) = (S.live.map c.target).map (a * ·) := by
    rw [List.map_map]
    rfl
  have hf := forN_view (Nested.scaled2 a) (g := fun i => Nested.step c (k.2.1 i))
    (g' := fun i => Nested.step { c with target := fun x => a * c.target x } (k.2.1 i)) (fun i p => Nested.step_scaled ha c (k.2.1 i) p)
    (k.1 - S.samples.length) ({ S with numPi := S.numPi + S.live.length }, S.live.map c.target)
  have hn : ({ Nested.scaled a S with numPi := (Nested.scaled a S).numPi + (Nested.scaled a S).live.length } : Nested.Nest d) =
    { Nested.scaled a S with numPi := S.numPi + S.live.length } := rfl
  have hv : (Nested.scaled a S).live = S.live := rfl
  dsimp only
  rw [hn, hv, Nested.samples_scaled]
  rw [hl]
  unfold Nested.scaled2 at hf
  dsimp only at hf
  have hs : Nested.scaled a { S with numPi := S.numPi + S.live.length } = { Nested.scaled a S with numPi := S.numPi + S.live.length } := rfl
  rw [hs] at hf
  rw [hf]
  cases forN (fun i => Nested.step c (k.2.1 i)) (k.1 - S.samples.length)
      ({ S with numPi := S.numPi + S.live.length }, S.live.map c.target) with
  | running p => rfl
  | raised e p => rfl
  | done p =>
    dsimp only [Out.view]
    rw [Nested.samples_scaled]
    by_cases hp : p.1.samples = []
    · rw [if_pos hp, if_pos hp]
    · rw [if_neg hp, if_neg hp]
      have hw : ∀ T : Nested.Nest d, Nested.finalWeights c.N (Nested.scaled a T).L = Nested.finalWeights c.N T.L :=
        fun T => Nested.finalWeights_scaled ha _ _
      rw [hw]
      exact Nested.finish_scaled a c.nKde k.2.2 (Nested.finalWeights c.N p.1.L) p.1

/-! ### Multi-nested sampling -/

namespace MultiNested
variable {d : ℕ}

theorem recursiveClustering_target (c : Cfg d) (t : (Fin d → ℝ) → ℝ) :
    recursiveClustering { c with target := t } = recursiveClustering c := by
  have h1 : ∀ km pts k i, fitAll { c with target := t } km pts k i = fitAll c km pts k i := by
    intro km pts k i
    induction i with
    | zero => rfl
    | succ i ih => rw [fitAll, fitAll, ih]
  have h2 : ∀ km pts fuel ells, clustering { c with target := t } km pts fuel ells = clustering c km pts fuel ells := by
    intro km pts fuel
    induction fuel with
    | zero => intro ells; rfl
    | succ fuel ih =>
      intro ells
      rw [clustering, clustering, h1]
      simp only [ih]
  funext km fuel pts
  unfold recursiveClustering
  simp only [h2]

theorem resample_scaled {a : ℝ} (ha : 0 < a) (c : Cfg d) (el : Ell d) (v : ℝ) (e : Env d) (S : Nested.Nest d) :
    resample { c with target := fun x => a * c.target x } el (a * v) e (Nested.scaled a S) =
      (resample c el v e S).view fun p => (Nested.scaled a p.1, p.2.1, a * p.2.2) := by
  unfold resample
  exact whileScript_view (fun p : Nested.Nest d × (Fin d → ℝ) × ℝ => (Nested.scaled a p.1, p.2.1, a * p.2.2))
    (cond := fun p => decide (p.2.2 < v) && decide (c.radius ^ d < el.vol))
    (cond' := fun p => decide (p.2.2 < a * v) && decide (c.radius ^ d < el.vol))
    (fun p => by simp only [mul_lt_mul_iff_right₀ ha]) (fun t p => rfl) e.tries e.expired (Nested.count S, _, _)

theorem step_scaled {a : ℝ} (ha : 0 < a) (c : Cfg d) (el : Ell d) (e : Env d) (p : Nested.Nest d × List ℝ) :
    step { c with target := fun x => a * c.target x } el e (Nested.scaled2 a p) = (step c el e p).view (Nested.scaled2 a) := by
  obtain ⟨S, ws⟩ := p
  have hg : (el.idx.map fun i => (ws.map (a * ·)).getD i 0) = (el.idx.map fun i => ws.getD i 0).map (a * ·) := by
    rw [List.map_map]
    apply List.map_congr_left
    intro i _
    simp only [Function.comp, List.getD_eq_getElem?_getD, List.getElem?_map]
    cases ws[i]? <;> simp
  show step { c with target := fun x => a * c.target x } el e (Nested.scaled a S, ws.map (a * ·)) = _
  unfold step
  dsimp only
  rw [hg]
  cases h : el.idx.map fun i => ws.getD i 0 with
  | nil => rfl
  | cons v vs =>
    rw [List.map_cons]
    dsimp only
    have hi : (a * v :: vs.map (a * ·)).idxOf (a * Nested.minOf v vs) = (v :: vs).idxOf (Nested.minOf v vs) :=
      Nested.idxOf_scaled ha _ (v :: vs)
    rw [Nested.minOf_scaled ha, hi, Nested.addSample_scaled]
    generalize Nested.addSample (el.idx.getD ((v :: vs).idxOf (Nested.minOf v vs)) 0) S = T
    have hl : ({ Nested.scaled a T with L := (Nested.scaled a T).L ++ [a * Nested.minOf v vs] } : Nested.Nest d) =
        Nested.scaled a { T with L := T.L ++ [Nested.minOf v vs] } := by
      simp [Nested.scaled]
    rw [hl, resample_scaled ha]
    cases resample c el (Nested.minOf v vs) e { T with L := T.L ++ [Nested.minOf v vs] } with
    | running p => rfl
    | raised err p => rfl
    | done p =>
      simp only [Out.view, Nested.scaled2, List.map_set]
      rfl

end MultiNested

/-- **C151** for multi-nested sampling, from a new sampler. -/
theorem C151_multinested {d : ℕ} {a : ℝ} (ha : 0 < a) (c : MultiNested.Cfg d) (us : Fin c.N → Fin d → ℝ)
    (calls : List (ℕ × (ℕ → ℕ → ℕ) × ℕ × (ℕ → MultiNested.Env d) × (ℕ → ℕ))) :
    session (fun k => MultiNested.importanceSample { c with target := fun x => a * c.target x } k.1 k.2.1 k.2.2.1 k.2.2.2.1 k.2.2.2.2)
        Nested.seen calls (MultiNested.reset c us) =
      session (fun k => MultiNested.importanceSample c k.1 k.2.1 k.2.2.1 k.2.2.2.1 k.2.2.2.2) Nested.seen calls (MultiNested.reset c us) := by
  have h0 : Nested.scaled a (MultiNested.reset c us) = MultiNested.reset c us := rfl
  conv_lhs => rw [← h0]
  refine session_view (Nested.scaled a) Nested.seen (fun _ => rfl) (fun k S => ?_) calls _
  unfold MultiNested.importanceSample
  rw [MultiNested.recursiveClustering_target]
  have hv : (Nested.scaled a S).live = S.live := rfl
  dsimp only
  rw [hv, Nested.samples_scaled]
  cases MultiNested.recursiveClustering c k.2.1 k.2.2.1 S.live with
  | none => rfl
  | some r =>
    cases r with
    | error e => rfl
    | ok ells =>
      dsimp only
      have hl : S.live.map (fun x => a * c.target x) = (S.live.map c.target).map (a * ·) := by
        rw [List.map_map]
        rfl
      generalize MultiNested.perEll k.1 S.samples.length ells.length = m
      have hf := forN_view (Nested.scaled2 a) (g := fun i => MultiNested.step c (ells.getD (i / m) ⟨0, 0, []⟩) (k.2.2.2.1 i))
        (g' := fun i => MultiNested.step { c with target := fun x => a * c.target x } (ells.getD (i / m) ⟨0, 0, []⟩) (k.2.2.2.1 i))
        (fun i p => MultiNested.step_scaled ha c _ (k.2.2.2.1 i) p)
        (ells.length * m) ({ S with numPi := S.numPi + S.live.length }, S.live.map c.target)
      unfold Nested.scaled2 at hf
      dsimp only at hf
      rw [hl]
      have hs : Nested.scaled a { S with numPi := S.numPi + S.live.length } =
        { Nested.scaled a S with live := S.live, numPi := (Nested.scaled a S).numPi + S.live.length } := rfl
      rw [hs] at hf
      rw [hf]
      cases forN (fun i => MultiNested.step c (ells.getD (i / m) ⟨0, 0, []⟩) (k.2.2.2.1 i)) (ells.length * m)
          ({ S with numPi := S.numPi + S.live.length }, S.live.map c.target) with
      | running p => rfl
      | raised e p => rfl
      | done p =>
        dsimp only [Out.view]
        rw [Nested.samples_scaled]
        by_cases hp : p.1.samples = []
        · rw [if_pos hp, if_pos hp]
        · rw [if_neg hp, if_neg hp]
          have hw : ∀ T : Nested.Nest d, Nested.finalWeights c.N (Nested.scaled a T).L = Nested.finalWeights c.N T.L :=
            fun T => Nested.finalWeights_scaled ha _ _
          rw [hw]
          exact Nested.finish_scaled a c.nKde k.2.2.2.2 (Nested.finalWeights c.N p.1.L) p.1

/-! ### Non-vacuity -/

/-- The hypotheses of `C151_dm` and `C151_lais` are met by every construction with a positive number of proposals; the sessions
of the theorems are over arbitrary lists of calls. -/
example : ∃ S : AIS ℚ 1, AIS.reset 2 ![0] ![1] (fun k => ![(k : ℚ) / 2]) = .ok S ∧ S.centers.length = 2 := by
  cases hr : AIS.reset (K := ℚ) (d := 1) 2 ![0] ![1] (fun k => ![(k : ℚ) / 2]) with
  | error e => simp [AIS.reset, setWeights] at hr
  | ok S =>
    refine ⟨S, rfl, ?_⟩
    simp [AIS.reset, setWeights] at hr
    rw [← hr]
    rfl

/-- DM-AIS for a target that is not constant and for seven times that target. -/
example : ∀ S : AIS ℚ 1, AIS.reset 2 ![0] ![1] (fun k => ![(k : ℚ) / 2]) = .ok S → ∀ calls : List (ℕ × Bool × List (DM.Iter ℚ 1)),
    session (fun a => DM.importanceSample 2 1 (fun _ _ => XF.fin 1) (fun x => XF.fin 7 * XF.fin (1 + x 0)) a.1 a.2.1 a.2.2) AIS.seen calls S =
      session (fun a => DM.importanceSample 2 1 (fun _ _ => XF.fin 1) (fun x => XF.fin (1 + x 0)) a.1 a.2.1 a.2.2) AIS.seen calls S :=
  fun S hS calls => C151_dm (by norm_num) 2 1 _ _ _ _ _ S hS calls

end Verif
