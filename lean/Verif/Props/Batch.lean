import Verif.Model.Batch
import Verif.Props.Uniform
import Verif.Props.Mixture
import Verif.Props.Densities
import Mathlib.Tactic.NormNum
import Mathlib.Tactic.FinCases

/-!
# Properties C15 and C94: densities on arrays of points
-/

set_option linter.unusedSectionVars false
set_option autoImplicit false

namespace Verif
namespace Batch

variable {d : ℕ} {α : Type*}

/-- What a user expects from a density evaluated on arrays: a matrix with `d` columns gives one value per row, each
row evaluated on its own; a vector with `d` entries is a single point; every other shape is rejected. (The empty
matrix is treated separately.) -/
structure RowWise (d : ℕ) (c : NArr ℝ → Except PyErr (List α)) (f : (Fin d → ℝ) → α) : Prop where
  mat : ∀ rows : List (Fin d → ℝ), rows ≠ [] → c (.mat d rows) = .ok (rows.map f)
  vec : ∀ x : Fin d → ℝ, c (.vec (List.ofFn x)) = .ok [f x]
  badVec : ∀ xs : List ℝ, xs.length ≠ d → c (.vec xs) = .error .value
  badMat : ∀ m (rows : List (Fin m → ℝ)), m ≠ d → rows ≠ [] → c (.mat m rows) = .error .value
  other : c .other = .error .value

theorem rowWise_checkShape (f : (Fin d → ℝ) → α) :
    RowWise d (fun x => (checkShape d x).map fun rows => rows.map f) f where
  mat rows h := by
    cases rows with
    | nil => exact absurd rfl h
    | cons r rs => simp [checkShape, Except.map]
  vec x := by
    have h : (List.ofFn x).length = d := by simp
    simp [checkShape, Except.map]
  badVec xs h := by simp [checkShape, dif_neg h, Except.map]
  badMat m rows h h' := by
    cases rows with
    | nil => exact absurd rfl h'
    | cons r rs => simp [checkShape, dif_neg h, Except.map]
  other := rfl

theorem rowWise_reshape3 (f : (Fin d → ℝ) → α) :
    RowWise d (fun x => (reshape3 d x).map fun rows => rows.map f) f where
  mat rows h := by
    cases rows with
    | nil => exact absurd rfl h
    | cons r rs => simp [reshape3, Except.map]
  vec x := by
    have h : (List.ofFn x).length = d := by simp
    simp [reshape3, Except.map]
  badVec xs h := by simp [reshape3, dif_neg h, Except.map]
  badMat m rows h h' := by
    cases rows with
    | nil => exact absurd rfl h'
    | cons r rs => simp [reshape3, dif_neg h, Except.map]
  other := rfl

theorem RowWise.map {β : Type*} {c : NArr ℝ → Except PyErr (List α)} {f : (Fin d → ℝ) → α} (h : RowWise d c f)
    (g : α → β) : RowWise d (fun x => (c x).map fun l => l.map g) (fun x => g (f x)) where
  mat rows hr := by simp [h.mat rows hr, Except.map]
  vec x := by simp [h.vec x, Except.map]
  badVec xs hx := by simp [h.badVec xs hx, Except.map]
  badMat m rows hm hr := by simp [h.badMat m rows hm hr, Except.map]
  other := by simp [h.other, Except.map]

theorem RowWise.congr {c c' : NArr ℝ → Except PyErr (List α)} {f : (Fin d → ℝ) → α} (h : RowWise d c f)
    (e : ∀ x, c' x = c x) : RowWise d c' f := by
  have : c' = c := funext e
  rw [this]; exact h

/-- **C15** (partial: the exponential and Maxwell `prob` are missing, see `C15_refuted` and C74) The normal, uniform, symmetric Pareto and banana densities and their logarithms, and the logarithms of the
exponential and Maxwell densities, evaluate arrays row by row and reject every other shape. -/
theorem C15_partial :
    (∀ (d : ℕ) (s : Normal d), RowWise d s.logProb s.logProb1 ∧ RowWise d s.prob s.prob1) ∧
    (∀ (d : ℕ) (U : Uniform ℝ d), RowWise d U.prob U.prob1) ∧
    (∀ (d : ℕ) (s : Exponential d), RowWise d s.logProb s.logProb1) ∧
    RowWise 1 Maxwell.logProb Maxwell.logProb1 ∧
    RowWise 1 Pareto.prob (fun x => 1 / (4 * (1 + |x 0|) ^ (3/2 : ℝ))) ∧
    RowWise 1 Pareto.logProb (fun x => XF.log (XF.fin (1 / (4 * (1 + |x 0|) ^ (3/2 : ℝ))))) ∧
    RowWise 2 Banana.logProb (fun x => Banana.logdensity (x 0) (x 1)) ∧
    RowWise 2 Banana.prob (fun x => Real.exp (Banana.logdensity (x 0) (x 1))) := by
  refine ⟨fun d s => ⟨rowWise_checkShape _, (rowWise_checkShape s.logProb1).map Real.exp⟩, fun d U => ?_,
    fun d s => rowWise_checkShape _, rowWise_reshape3 _, rowWise_checkShape _,
    (rowWise_checkShape _).map _, rowWise_reshape3 _, (rowWise_reshape3 _).map Real.exp⟩
  obtain ⟨h1, h2, -, h3, h4, -, h5⟩ := C15_uniform_batch U
  exact ⟨h2, h1, h3, h4, h5⟩

/-- **C15** The Laplace density returns one value per row as well, in an array with one column. -/
theorem C15_laplace (rows : List (Fin 1 → ℝ)) (x : Fin 1 → ℝ) :
    Laplace.prob (.mat 1 rows) = .ok (.mat 1 (rows.map fun r _ => Real.exp (Laplace.logProb1 r))) ∧
    Laplace.logProb (.mat 1 rows) = .ok (.mat 1 (rows.map fun r _ => Laplace.logProb1 r)) ∧
    Laplace.prob (.vec (List.ofFn x)) = .ok (.mat 1 [fun _ => Real.exp (Laplace.logProb1 x)]) ∧
    Laplace.logProb (.vec (List.ofFn x)) = .ok (.mat 1 [fun _ => Laplace.logProb1 x]) := by
  have h : (List.ofFn x).length = 1 := by simp
  refine ⟨?_, ?_, ?_, ?_⟩
  · cases rows <;> simp [Laplace.prob, reshape3, Except.map]
  · cases rows <;> simp [Laplace.logProb, reshape3, Except.map]
  · simp only [Laplace.prob, reshape3, dif_pos h, Except.map]
    congr 3
  · simp only [Laplace.logProb, reshape3, dif_pos h, Except.map]
    congr 3

/-! ### Mixtures -/

theorem ok_bind {β γ : Type} (a : β) (g : β → Except PyErr γ) : ((Except.ok a : Except PyErr β) >>= g) = g a := rfl

theorem mapM_ok {β γ : Type*} (l : List β) (g : β → Except PyErr γ) (v : β → γ) (h : ∀ b ∈ l, g b = .ok (v b)) :
    l.mapM g = .ok (l.map v) := by
  induction l with
  | nil => rfl
  | cons b l ih =>
    rw [List.mapM_cons, h b (by simp), ih fun b' hb => h b' (by simp [hb])]
    rfl

theorem mapM_error {β γ : Type*} (l : List β) (hl : l ≠ []) (g : β → Except PyErr γ) (e : PyErr)
    (h : ∀ b ∈ l, g b = .error e) : l.mapM g = .error e := by
  cases l with
  | nil => exact absurd rfl hl
  | cons b l => rw [List.mapM_cons, h b (by simp)]; rfl

theorem assignVec_self (v : List (XF ℝ)) : assignVec v.length v = .ok v := by simp [assignVec]

theorem assignVec_of (n : ℕ) (v : List (XF ℝ)) (h : v.length = n) : assignVec n v = .ok v := by simp [assignVec, h]

/-- A component of a mixture together with its row function. -/
structure Piece (d : ℕ) where
  c : NArr ℝ → Except PyErr (List (XF ℝ))
  f : (Fin d → ℝ) → XF ℝ

theorem mixLogProb_ok (ps : List (Piece d)) (w : List (XF ℝ)) (x : NArr ℝ) (rows : List (Fin d → ℝ))
    (hn : columns x = .ok rows.length) (h : ∀ p ∈ ps, p.c x = .ok (rows.map p.f)) :
    mixLogProb (ps.map fun p => ofVec p.c) w x = .ok ((⟨ps.map Piece.f, w⟩ : Mixture (Fin d → ℝ)).logProb rows) := by
  have e : (ps.map fun p => ofVec p.c).mapM (fun c => c x >>= assignRow rows.length)
      = .ok (ps.map fun p => rows.map p.f) := by
    rw [List.mapM_map]
    refine mapM_ok ps _ _ fun p hp => ?_
    show ofVec p.c x >>= assignRow rows.length = _
    unfold ofVec
    rw [h p hp]
    exact assignVec_of _ _ (by simp)
  unfold mixLogProb
  rw [hn]
  show ((ps.map fun p => ofVec p.c).mapM (fun c => c x >>= assignRow rows.length) >>= _) = _
  rw [e]
  show Except.ok _ = _
  simp only [Mixture.logProb, List.map_map]
  rfl

theorem mixProb_ok (ps : List (Piece d)) (w : List (XF ℝ)) (x : NArr ℝ) (rows : List (Fin d → ℝ))
    (hn : columns x = .ok rows.length) (h : ∀ p ∈ ps, p.c x = .ok (rows.map p.f)) :
    mixProb (ps.map fun p => ofVec p.c) w x = .ok ((⟨ps.map Piece.f, w⟩ : Mixture (Fin d → ℝ)).prob rows) := by
  have e : ((ps.map fun p => ofVec p.c).zip w).mapM (fun p => do
        let v ← p.1 x
        assignVec rows.length ((flatten v).map fun a => XF.exp a * p.2))
      = .ok ((ps.zip w).map fun p => rows.map fun r => XF.exp (p.1.f r) * p.2) := by
    rw [List.zip_map_left, List.mapM_map]
    refine mapM_ok _ _ _ fun p hp => ?_
    show (ofVec p.1.c x >>= fun v => assignVec rows.length ((flatten v).map fun a => XF.exp a * p.2)) = _
    unfold ofVec
    rw [h p.1 (List.of_mem_zip hp).1]
    show assignVec rows.length ((rows.map p.1.f).map fun a => XF.exp a * p.2) = _
    rw [assignVec_of _ _ (by simp), List.map_map]
    rfl
  unfold mixProb
  rw [hn]
  show (((ps.map fun p => ofVec p.c).zip w).mapM (fun p => do
        let v ← p.1 x
        assignVec rows.length ((flatten v).map fun a => XF.exp a * p.2)) >>= _) = _
  rw [e]
  show Except.ok _ = _
  unfold Mixture.prob
  rw [List.zipWith_map_left, ← List.map_uncurry_zip_eq_zipWith]
  rfl

theorem rowWise_mix (ps : List (Piece d)) (hp : ∀ p ∈ ps, RowWise d p.c p.f) (F : List (Fin d → ℝ) → List (XF ℝ)) (f : (Fin d → ℝ) → XF ℝ)
    (hF : ∀ rows, F rows = rows.map f) (C : NArr ℝ → Except PyErr (List (XF ℝ)))
    (hok : ∀ x rows, columns x = .ok rows.length → (∀ p ∈ ps, p.c x = .ok (rows.map p.f)) → C x = .ok (F rows))
    (herr : ∀ x n, columns x = .ok n → (∀ p ∈ ps, p.c x = .error .value) → C x = .error .value)
    (hother : C .other = .error .value) : RowWise d C f where
  mat rows hr := by
    rw [hok (.mat d rows) rows rfl fun p h => (hp p h).mat rows hr, hF]
  vec x := by
    rw [hok (.vec (List.ofFn x)) [x] rfl fun p h => (hp p h).vec x, hF]
    rfl
  badVec xs hx := herr _ 1 rfl fun p h => (hp p h).badVec xs hx
  badMat m rows hm hr := herr _ rows.length rfl fun p h => (hp p h).badMat m rows hm hr
  other := hother

/-- **C15**, **C94** A mixture whose components evaluate arrays row by row does so too, for `prob` and `log_prob`; the
value at a row is the sum of the component densities weighted with the normalised weights, and its logarithm. -/
theorem C15_mixture (ps : List (Piece d)) (hp : ∀ p ∈ ps, RowWise d p.c p.f)
    (hd : ∀ p ∈ ps, ∀ x, IsLogDensity (p.f x)) (ws : List (XF ℝ)) (hl : ps.length = ws.length)
    (hu : UsableWeights ws) :
    ∃ w : List ℝ, setWeights ps.length ws = .ok (w.map .fin) ∧ IsProbVec w ∧ w.length = ps.length ∧
      RowWise d (mixProb (ps.map fun p => ofVec p.c) (w.map .fin))
        (fun x => .fin (List.zipWith (fun (p : Piece d) wi => wi * densOf (p.f x)) ps w).sum) ∧
      RowWise d (mixLogProb (ps.map fun p => ofVec p.c) (w.map .fin))
        (fun x => let v := (List.zipWith (fun (p : Piece d) wi => wi * densOf (p.f x)) ps w).sum
          if v = 0 then .ninf else .fin (Real.log v)) := by
  obtain ⟨m, w, hmk, hmw, hpv, hlen, hprob, hlog, -⟩ := C03_prob_logprob_agree (ps.map Piece.f) ws (by simpa using hl) hu
    (by intro f hf; obtain ⟨p, hpm, rfl⟩ := List.mem_map.mp hf; exact hd p hpm)
  have hne : ps ≠ [] := by
    rintro rfl
    have hnil : ws = [] := by simpa using hl.symm
    subst hnil
    obtain ⟨w, -, hw⟩ := hu.1
    simp at hw
  have hms : m = ⟨ps.map Piece.f, w.map .fin⟩ ∧ setWeights ps.length ws = .ok (w.map .fin) := by
    unfold Mixture.mk' at hmk
    rw [List.length_map] at hmk
    cases hs : setWeights ps.length ws with
    | error e => rw [hs] at hmk; simp [Except.map] at hmk
    | ok v =>
      rw [hs] at hmk
      simp only [Except.map, Except.ok.injEq] at hmk
      subst hmk
      simp only at hmw
      subst hmw
      exact ⟨rfl, rfl⟩
  obtain ⟨hm, hset⟩ := hms
  subst hm
  rw [List.length_map] at hlen
  have hden : ∀ x, mixDensity (ps.map Piece.f) w x
      = (List.zipWith (fun (p : Piece d) wi => wi * densOf (p.f x)) ps w).sum := by
    intro x
    unfold mixDensity
    rw [List.zipWith_map_left]
  refine ⟨w, hset, hpv, hlen, ?_, ?_⟩
  · refine rowWise_mix ps hp _ _ ?_ _ (fun x rows hn h => mixProb_ok ps _ x rows hn h) ?_ rfl
    · intro rows
      rw [hprob]
      simp only [hden]
    · intro x n hn h
      unfold mixProb
      rw [hn]
      rw [ok_bind, mapM_error _ ?_ _ .value ?_]
      · rfl
      · intro h0
        have := congrArg List.length h0
        simp [hlen] at this
        exact hne this
      · rintro ⟨c, v⟩ hb
        obtain ⟨p, hpm, rfl⟩ := List.mem_map.mp (List.of_mem_zip hb).1
        show (ofVec p.c x >>= _) = _
        unfold ofVec
        rw [h p hpm]
        rfl
  · refine rowWise_mix ps hp _ _ ?_ _ (fun x rows hn h => mixLogProb_ok ps _ x rows hn h) ?_ rfl
    · intro rows
      rw [hlog]
      simp only [hden]
    · intro x n hn h
      unfold mixLogProb
      rw [hn]
      rw [ok_bind, mapM_error _ (by simpa using hne) _ .value ?_]
      · rfl
      · intro c hb
        obtain ⟨p, hpm, rfl⟩ := List.mem_map.mp hb
        show (ofVec p.c x >>= _) = _
        unfold ofVec
        rw [h p hpm]
        rfl

/-- A component as it is shipped: its two methods. -/
structure Shipped where
  logProb : Comp
  prob : NArr ℝ → Except PyErr (List (XF ℝ))

/-- The normal distribution. -/
noncomputable def Shipped.normal (s : Normal d) : Shipped :=
  ⟨normalComp s, fun x => (s.prob x).map fun l => l.map XF.fin⟩

/-- The uniform distribution. -/
noncomputable def Shipped.uniform (U : Uniform ℝ d) : Shipped :=
  ⟨uniformComp U, U.prob⟩

/-- A normal distribution, or a uniform distribution over a box with positive volume. -/
def Shipped.Plain (d : ℕ) (c : Shipped) : Prop :=
  (∃ s : Normal d, c = Shipped.normal s) ∨ ∃ U : Uniform ℝ d, 0 < U.volume ∧ c = Shipped.uniform U

theorem Shipped.Plain.piece {c : Shipped} (h : c.Plain d) :
    ∃ p : Piece d, c.logProb = ofVec p.c ∧ RowWise d p.c p.f ∧ (∀ x, IsLogDensity (p.f x)) ∧
      RowWise d c.prob fun x => .fin (densOf (p.f x)) := by
  rcases h with ⟨s, rfl⟩ | ⟨U, hU, rfl⟩
  · refine ⟨⟨_, fun x => .fin (s.logProb1 x)⟩, rfl, (rowWise_checkShape s.logProb1).map _, fun x => .inr ⟨_, rfl⟩, ?_⟩
    exact (C15_partial.1 d s).2.map XF.fin
  · have hv : U.probVal = .fin (1 / U.volume) := XF.fin_div_ne _ _ hU.ne'
    have hpos : 0 < 1 / U.volume := one_div_pos.mpr hU
    have hlog : XF.log (XF.fin (1 / U.volume)) = .fin (Real.log (1 / U.volume)) := by
      simp only [XF.log, if_neg hpos.not_gt, if_neg hpos.ne']
    refine ⟨⟨_, U.logProb1⟩, rfl, rowWise_checkShape _, ?_, ?_⟩
    · intro x
      show IsLogDensity (U.logProb1 x)
      unfold Uniform.logProb1
      rw [hv, hlog]
      split
      · exact .inr ⟨_, rfl⟩
      · exact .inl rfl
    · have h : U.prob1 = fun x => .fin (densOf (U.logProb1 x)) := by
        funext x
        unfold Uniform.prob1 Uniform.logProb1
        rw [hv, hlog]
        split
        · simp only [densOf, Real.exp_log hpos]
        · rfl
      rw [← h]
      exact C15_partial.2.1 d U

theorem pieces (cs : List Shipped) (hc : ∀ c ∈ cs, c.Plain d) :
    ∃ ps : List (Piece d), (ps.map fun p => ofVec p.c) = (cs.map Shipped.logProb) ∧ ps.length = cs.length ∧
      (∀ p ∈ ps, RowWise d p.c p.f) ∧ (∀ p ∈ ps, ∀ x, IsLogDensity (p.f x)) ∧
      List.Forall₂ (fun (c : Shipped) (p : Piece d) => RowWise d c.prob fun x => .fin (densOf (p.f x))) cs ps := by
  induction cs with
  | nil => exact ⟨[], rfl, rfl, by simp, by simp, .nil⟩
  | cons c cs ih =>
    obtain ⟨ps, h1, h2, h3, h4, h5⟩ := ih fun c' h => hc c' (by simp [h])
    obtain ⟨q, g0, g1, g2, g3⟩ := (hc c (by simp)).piece
    refine ⟨q :: ps, by simp [h1, g0], by simp [h2], ?_, ?_, .cons g3 h5⟩
    · intro p hp
      rcases List.mem_cons.mp hp with rfl | hp
      · exact g1
      · exact h3 p hp
    · intro p hp
      rcases List.mem_cons.mp hp with rfl | hp
      · exact g2
      · exact h4 p hp

theorem map_eq_range {β γ : Type*} (l : List β) (g : β → γ) (G : ℕ → γ)
    (h : ∀ j (hj : j < l.length), g l[j] = G j) : l.map g = (List.range l.length).map G := by
  apply List.ext_getElem (by simp)
  intro j h1 h2
  simp only [List.getElem_map, List.getElem_range]
  exact h j (by simpa using h1)

/-- **C94** (partial: normal and uniform components) Evaluating the mixture on a batch succeeds whenever the weights
are usable, and its value at every row is the sum of the values the components report for that row, weighted with the
normalised weights; `log_prob` is the logarithm of that value. `vals` are the arrays the components return. -/
theorem C94_partial (cs : List Shipped) (hc : ∀ c ∈ cs, c.Plain d) (ws : List (XF ℝ)) (hl : cs.length = ws.length)
    (hu : UsableWeights ws) :
    ∃ w : List ℝ, setWeights cs.length ws = .ok (w.map .fin) ∧ IsProbVec w ∧ w.length = cs.length ∧
      ∀ rows : List (Fin d → ℝ), rows ≠ [] → ∃ vals : List (List ℝ),
        List.Forall₂ (fun (c : Shipped) v => c.prob (.mat d rows) = .ok (v.map .fin) ∧ v.length = rows.length) cs vals ∧
        (mixProb (cs.map Shipped.logProb) (w.map .fin) (.mat d rows)
          = .ok ((List.range rows.length).map fun j => .fin (List.zipWith (fun v wi => wi * v.getD j 0) vals w).sum)) ∧
        (mixLogProb (cs.map Shipped.logProb) (w.map .fin) (.mat d rows)
          = .ok ((List.range rows.length).map fun j =>
              let v := (List.zipWith (fun v wi => wi * v.getD j 0) vals w).sum
              if v = 0 then .ninf else .fin (Real.log v))) := by
  obtain ⟨ps, h1, h2, h3, h4, h5⟩ := pieces cs hc
  obtain ⟨w, hw, hpv, hlen, hP, hL⟩ := C15_mixture ps h3 h4 ws (by rw [h2, hl]) hu
  refine ⟨w, by rw [← h2]; exact hw, hpv, by rw [hlen, h2], fun rows hr => ?_⟩
  have key : ∀ j (hj : j < rows.length),
      (List.zipWith (fun (p : Piece d) wi => wi * densOf (p.f rows[j])) ps w).sum
      = (List.zipWith (fun (v : List ℝ) wi => wi * v.getD j 0)
          (ps.map fun p => rows.map fun x => densOf (p.f x)) w).sum := by
    intro j hj
    rw [List.zipWith_map_left]
    simp [List.getD, hj]
  refine ⟨ps.map fun p => rows.map fun x => densOf (p.f x), ?_, ?_, ?_⟩
  · rw [List.forall₂_map_right_iff]
    refine h5.imp fun c p h => ⟨?_, by simp⟩
    rw [h.mat rows hr, List.map_map]
    rfl
  · rw [← h1, hP.mat rows hr]
    congr 1
    exact map_eq_range _ _ _ fun j hj => by rw [key j hj]
  · rw [← h1, hL.mat rows hr]
    congr 1
    exact map_eq_range _ _ _ fun j hj => by simp only [key j hj]

example : (∀ c ∈ [Shipped.normal (d := 1) ⟨fun _ => 0, 1, 1, 1, 0, 0⟩,
      Shipped.uniform (⟨fun _ => 0, fun _ => 1, 2⟩ : Uniform ℝ 1)], c.Plain 1) ∧
    UsableWeights [XF.fin (1:ℝ), XF.fin 3] := by
  refine ⟨?_, ⟨1, by norm_num, by simp⟩, by simp⟩
  intro c hc
  rcases List.mem_cons.mp hc with rfl | hc
  · exact .inl ⟨_, rfl⟩
  · rw [List.mem_singleton] at hc
    exact .inr ⟨_, by norm_num, hc⟩

theorem expo_batch (s : Exponential 1) :
    s.prob (.mat 1 [![-1], ![1]]) = .ok [0, Real.exp (s.logProb1 ![1])] := by
  have hf : ([![-1], ![(1:ℝ)]] : List (Fin 1 → ℝ)).filter positiveRow = [![1]] := by simp [positiveRow]
  simp only [Exponential.prob, hf]
  simp [Exponential.logProb, checkShape, Except.map, maskAssign, positiveRow, Bind.bind, Except.bind, pure, Except.pure]

/-- **C94** A component that answers every batch with a single value counts with that value at every point: the mixture of
such a component alone has the same density everywhere. -/
theorem C94_single_value (v : ℝ) (x : NArr ℝ) (n : ℕ) (hn : columns x = .ok n) :
    mixProb [fun _ => .ok (.vec [.fin v])] [.fin 1] x = .ok (List.replicate n (.fin (Real.exp v))) ∧
    mixLogProb [fun _ => .ok (.vec [.fin v])] [.fin 1] x = .ok (List.replicate n (.fin v)) := by
  have h1 : ∀ a : XF ℝ, assignVec n [a] = .ok (List.replicate n a) := by
    intro a
    by_cases h : n = 1
    · subst h; rfl
    · simp [assignVec, Ne.symm h]
  constructor
  · simp only [mixProb, hn, ok_bind, List.zip_cons_cons, List.zip_nil_right, List.mapM_cons, List.mapM_nil, flatten,
      List.map_cons, List.map_nil, h1]
    simp [sumAxis0, XF.exp, ok_bind, pure, Except.pure]
  · simp only [mixLogProb, hn, ok_bind, List.mapM_cons, List.mapM_nil, assignRow, h1]
    simp [ok_bind, pure, Except.pure]
    have h2 : Mixture.logsumexp [XF.fin v] [XF.fin 1] = XF.fin v := by
      simp [Mixture.logsumexp, XF.ltb, XF.isFin, XF.exp, XF.log]
      rw [if_neg (by norm_num)]
      simp
    rw [List.eq_replicate_iff]
    refine ⟨by simp, fun b hb => ?_⟩
    obtain ⟨j, hj, rfl⟩ := List.mem_map.mp hb
    rw [List.mem_range] at hj
    simp [hj, h2]

example : columns (.mat 1 [![0], ![1]]) = .ok 2 := rfl

/-- **C94** (negation) Two disagreements. A mixture with a Laplace component cannot report the logarithm of its density
for two points, although it reports the density itself; a mixture with an exponential component reports 1 at the point
-1, where the exponential density reports 0. -/
theorem C94_refuted :
    (mixLogProb [laplaceComp] [.fin 1] (.mat 1 [![0], ![1]]) = .error .value ∧
      mixProb [laplaceComp] [.fin 1] (.mat 1 [![0], ![1]]) = .ok [.fin (1/2), .fin (1/2 * Real.exp (-1))]) ∧
    (∀ s : Exponential 1,
      mixProb [exponentialComp s] [.fin 1] (.mat 1 [![-1], ![1]])
        = .ok [.fin 1, .fin (Real.exp (s.logProb1 ![1]))] ∧
      s.prob (.mat 1 [![-1], ![1]]) = .ok [0, Real.exp (s.logProb1 ![1])]) := by
  refine ⟨⟨?_, ?_⟩, fun s => ⟨?_, expo_batch s⟩⟩
  · have h : laplaceComp (.mat 1 [![0], ![1]])
        = .ok (.mat 1 [fun _ => .fin (Laplace.logProb1 ![0]), fun _ => .fin (Laplace.logProb1 ![1])]) := by
      unfold laplaceComp
      rw [(C15_laplace [![0], ![1]] ![0]).2.1]
      rfl
    simp only [mixLogProb, columns, List.mapM_cons, List.mapM_nil, h, ok_bind]
    rfl
  · have h : laplaceComp (.mat 1 [![0], ![1]])
        = .ok (.mat 1 [fun _ => .fin (Laplace.logProb1 ![0]), fun _ => .fin (Laplace.logProb1 ![1])]) := by
      unfold laplaceComp
      rw [(C15_laplace [![0], ![1]] ![0]).2.1]
      rfl
    simp only [mixProb, columns, List.zip_cons_cons, List.zip_nil_right, List.mapM_cons, List.mapM_nil, h, ok_bind]
    have e0 : Real.exp (Laplace.logProb1 ![0]) = 1 / 2 := by
      simp [Laplace.logProb1, Real.exp_neg, Real.exp_log]
    have e1 : Real.exp (Laplace.logProb1 ![1]) = 1 / 2 * Real.exp (-1) := by
      simp [Laplace.logProb1, sub_eq_add_neg, Real.exp_add, Real.exp_neg, Real.exp_log]
    rw [← e1, ← e0]
    simp [assignVec, flatten, sumAxis0, XF.exp, ok_bind, pure, Except.pure]
  · have h : exponentialComp s (.mat 1 [![-1], ![1]])
        = .ok (.vec [.fin (s.logProb1 ![-1]), .fin (s.logProb1 ![1])]) := by
      simp [exponentialComp, ofVec, Exponential.logProb, checkShape, Except.map]
    have e0 : s.logProb1 ![-1] = 0 := by
      simp [Exponential.logProb1, positiveRow]
    simp only [mixProb, columns, List.zip_cons_cons, List.zip_nil_right, List.mapM_cons, List.mapM_nil, h, ok_bind, e0]
    simp [assignVec, flatten, sumAxis0, XF.exp, ok_bind, pure, Except.pure]


/-- **C15** (negation) The exponential density does not evaluate rows on their own: a batch holding points inside and
outside the support is evaluated, the point outside alone is an IndexError, and a single point given as a vector is
rejected. The Maxwell density rejects single points given as vectors too. -/
theorem C15_refuted (s : Exponential 1) :
    s.prob (.mat 1 [![-1], ![1]]) = .ok [0, Real.exp (s.logProb1 ![1])] ∧
    s.prob (.mat 1 [![-1]]) = .error .index ∧
    s.prob (.vec [1]) = .error .value ∧
    Maxwell.prob (.vec [1]) = .error .value ∧
    (∀ f : (Fin 1 → ℝ) → ℝ, ¬ RowWise 1 s.prob f) := by
  have h1 : s.prob (.mat 1 [![-1]]) = .error .index := by
    have hf : ([![(-1:ℝ)]] : List (Fin 1 → ℝ)).filter positiveRow = [] := by simp [positiveRow]
    simp only [Exponential.prob, hf]
    rfl
  refine ⟨expo_batch s, h1, rfl, rfl, fun f h => ?_⟩
  have := h.mat [![-1]] (by simp)
  rw [h1] at this
  cases this


end Batch
end Verif
