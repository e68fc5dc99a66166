import Verif.Proof.MPMC

/-!
# Iterations of M-PMC
-/

set_option linter.unusedSectionVars false
set_option autoImplicit false

namespace Verif

open Matrix

variable {d N : ℕ}

/-- Invariants of the iterations that do not raise. -/
theorem whileScript_inv_ok {σ ι : Type*} {cond : σ → Bool} {late : ι → Bool} {body : ι → σ → σ × Option PyErr}
    (I : σ → Prop) (h : ∀ it s, I s → cond s = true → (body it s).2 = none → I (body it s).1) (script : List ι)
    (expired : Bool) (s s' : σ) (hs : I s)
    (he : whileScript cond late body expired script s = .done s' ∨ whileScript cond late body expired script s = .running s') :
    I s' := by
  induction script generalizing expired s with
  | nil =>
    unfold whileScript at he
    split at he
    · rcases he with he | he <;> cases he
      exact hs
    · rcases he with he | he <;> cases he
      exact hs
  | cons it rest ih =>
    unfold whileScript at he
    split at he
    · rename_i hc
      have := h it s hs (by simp only [Bool.and_eq_true] at hc; exact hc.1)
      cases hb : body it s with
      | mk s1 e =>
        rw [hb] at this he
        cases e with
        | none => exact ih (late it) s1 (this rfl) he
        | some e => rcases he with he | he <;> cases he
    · rcases he with he | he <;> cases he
      exact hs

namespace PMC

/-- A state in which everything is a number: `bs` are the weights of the batches so far. -/
structure Good (k : ℕ) (S : PMC d N) : Prop where
  params : ∃ (m : Fin N → Fin d → ℝ) (a : Fin N → ℝ), S.means = (fun n => up (m n)) ∧ (∀ n, 0 < (S.covs n).det) ∧
    (∀ n, 0 < a n) ∧ ∑ n, a n = 1 ∧ S.alpha = (fun n => .fin (a n)) ∧ S.modelWeights = (List.ofFn a).map XF.fin
  arrays : ∃ (xs : List (Fin d → ℝ)) (bs : List (List ℝ)), S.samples = xs.map up ∧ S.weights = bs.flatten.map XF.fin ∧
    (∀ b ∈ bs, b.length = k ∧ IsProbVec b) ∧ xs.length = bs.length * k

/-- A state in which the proposals are undefined. -/
structure Poisoned (S : PMC d N) : Prop where
  means : ∀ n i, S.means n i = .nan
  alpha : ∀ n, S.alpha n = .fin 0
  model : S.modelWeights = List.replicate N (.fin 0)
  weights : XF.nan ∈ S.weights

/-- Density of the mixture for given component log densities. -/
noncomputable def mixAt (a : Fin N → ℝ) (l : Fin N → ℝ) : ℝ := ∑ n, a n * Real.exp (l n)

theorem mixAt_pos (hN : 0 < N) (a l : Fin N → ℝ) (ha : ∀ n, 0 < a n) : 0 < mixAt a l := by
  unfold mixAt
  apply Finset.sum_pos (fun n _ => mul_pos (ha n) (Real.exp_pos _))
  exact ⟨⟨0, hN⟩, Finset.mem_univ _⟩

theorem zipWith_ofFn {α β γ : Type*} (f : α → β → γ) (g : Fin N → α) (h : Fin N → β) :
    List.zipWith f (List.ofFn g) (List.ofFn h) = List.ofFn fun n => f (g n) (h n) := by
  apply List.ext_getElem
  · simp
  · intro i h1 h2
    simp

theorem logProb_fin (hN : 0 < N) (S : PMC d N) (x : Fin d → XF ℝ) (a l : Fin N → ℝ) (ha : ∀ n, 0 < a n)
    (hm : S.modelWeights = (List.ofFn a).map XF.fin) (hl : ∀ n, normalLog (S.means n) (S.covs n) x = .fin (l n)) :
    S.logProb x = .fin (Real.log (mixAt a l)) := by
  unfold logProb
  simp only [hl]
  rw [hm, Mixture.logsumexp_eq]
  · rw [zipWith_ofFn, List.sum_ofFn]
    have : (∑ i, a i * densOf (XF.fin (l i))) = mixAt a l := rfl
    rw [this]
    have hp := mixAt_pos hN a l ha
    simp [XF.log, hp.not_gt, hp.ne']
  · intro v hv
    rw [List.mem_ofFn] at hv
    obtain ⟨n, rfl⟩ := hv
    exact Or.inr ⟨_, rfl⟩
  · intro x hx
    rw [List.mem_ofFn] at hx
    obtain ⟨n, rfl⟩ := hx
    exact (ha n).le

theorem exp_sub_log (v : XF ℝ) (hv : IsLogDensity v) (q : ℝ) (hq : 0 < q) :
    XF.exp (v - .fin (Real.log q)) = .fin (densOf v / q) := by
  rw [Mixture.exp_sub_shift v hv, Real.exp_neg, Real.exp_log hq]
  rfl

theorem posterior_fin (hN : 0 < N) (S : PMC d N) (x : Fin d → XF ℝ) (a l : Fin N → ℝ) (ha : ∀ n, 0 < a n)
    (hm : S.modelWeights = (List.ofFn a).map XF.fin) (hal : S.alpha = fun n => .fin (a n))
    (hl : ∀ n, normalLog (S.means n) (S.covs n) x = .fin (l n)) (n : Fin N) :
    posterior S n x = .fin (a n * Real.exp (l n) / mixAt a l) := by
  unfold posterior
  rw [logProb_fin hN S x a l ha hm hl, hl n, hal]
  have : XF.log (XF.fin (a n)) = .fin (Real.log (a n)) := by simp [XF.log, (ha n).not_gt, (ha n).ne']
  simp only [this, XF.fin_add]
  rw [exp_sub_log _ (Or.inr ⟨_, rfl⟩) _ (mixAt_pos hN a l ha)]
  simp [densOf, Real.exp_add, Real.exp_log (ha n)]

/-- The batch of rows of numbers built from real points. -/
noncomputable def rowsReal (a : Fin N → ℝ) (l : Fin N → (Fin d → ℝ) → ℝ) (dens : (Fin d → ℝ) → ℝ) (ys : List (Fin d → ℝ)) :
    List (RRow d N) :=
  ys.map fun y => ⟨y, dens y / mixAt a (fun n => l n y) / (ys.map fun y => dens y / mixAt a fun n => l n y).sum,
    fun n => a n * Real.exp (l n y) / mixAt a fun n => l n y⟩

theorem rows_good (hN : 0 < N) (S : PMC d N) (a : Fin N → ℝ) (l : Fin N → (Fin d → ℝ) → ℝ) (ha : ∀ n, 0 < a n)
    (hm : S.modelWeights = (List.ofFn a).map XF.fin) (hal : S.alpha = fun n => .fin (a n))
    (hl : ∀ n x, normalLog (S.means n) (S.covs n) (up x) = .fin (l n x))
    (target : (Fin d → XF ℝ) → XF ℝ) (ht : ∀ x : Fin d → ℝ, IsLogDensity (target (up x))) (ys : List (Fin d → ℝ)) :
    let raw := fun y => densOf (target (up y)) / mixAt a fun n => l n y
    (ys.map up).map (rawWeight target S) = (ys.map raw).map XF.fin ∧
    ((ys.map raw).sum ≠ 0 →
      rowsOf target S (ys.map up) = (rowsReal a l (fun y => densOf (target (up y))) ys).map RRow.up) := by
  intro raw
  have hraw : ∀ y, rawWeight target S (up y) = .fin (raw y) := by
    intro y
    unfold rawWeight
    rw [logProb_fin hN S (up y) a (fun n => l n y) ha hm (fun n => hl n y)]
    exact exp_sub_log _ (ht y) _ (mixAt_pos hN a _ ha)
  have h1 : (ys.map up).map (rawWeight target S) = (ys.map raw).map XF.fin := by
    rw [List.map_map, List.map_map]
    apply List.map_congr_left
    intro y _
    exact hraw y
  refine ⟨h1, ?_⟩
  intro hs
  unfold rowsOf rowsReal
  rw [h1, XF.sum_map_fin, List.map_map, List.map_map]
  apply List.map_congr_left
  intro y _
  simp only [Function.comp_apply, RRow.up, Row.mk.injEq]
  refine ⟨trivial, ?_, ?_⟩
  · rw [hraw, XF.fin_div_ne _ _ hs]
  · funext n
    exact posterior_fin hN S (up y) a (fun n => l n y) ha hm hal (fun n => hl n y) n

theorem rowsReal_batch (hN : 0 < N) (a : Fin N → ℝ) (l : Fin N → (Fin d → ℝ) → ℝ) (ha : ∀ n, 0 < a n)
    (dens : (Fin d → ℝ) → ℝ) (hd : ∀ y, 0 ≤ dens y) (ys : List (Fin d → ℝ)) (hy : ∃ y ∈ ys, 0 < dens y) :
    0 < (ys.map fun y => dens y / mixAt a fun n => l n y).sum ∧ IsBatch (rowsReal a l dens ys) ∧
    ∀ n, 0 < rAlpha (rowsReal a l dens ys) n := by
  have hnn : ∀ y ∈ ys.map (fun y => dens y / mixAt a fun n => l n y), 0 ≤ y := by
    intro y hy
    obtain ⟨y, -, rfl⟩ := List.mem_map.1 hy
    exact div_nonneg (hd y) (mixAt_pos hN a _ ha).le
  obtain ⟨y, hy, hpos⟩ := hy
  have hs : 0 < (ys.map fun y => dens y / mixAt a fun n => l n y).sum := by
    have := List.single_le_sum hnn _ (List.mem_map.2 ⟨y, hy, rfl⟩)
    exact lt_of_lt_of_le (div_pos hpos (mixAt_pos hN a _ ha)) this
  have hrho : ∀ n y, 0 < a n * Real.exp (l n y) / mixAt a fun n => l n y := fun n y =>
    div_pos (mul_pos (ha n) (Real.exp_pos _)) (mixAt_pos hN a _ ha)
  have hB : IsBatch (rowsReal a l dens ys) := by
    refine ⟨⟨?_, ?_⟩, ?_⟩
    · intro w hw
      unfold rowsReal at hw
      rw [List.map_map] at hw
      obtain ⟨z, hz, rfl⟩ := List.mem_map.1 hw
      exact div_nonneg (div_nonneg (hd z) (mixAt_pos hN a _ ha).le) hs.le
    · unfold rowsReal
      rw [List.map_map]
      show (ys.map fun y => dens y / mixAt a (fun n => l n y) /
        (ys.map fun y => dens y / mixAt a fun n => l n y).sum).sum = 1
      rw [sum_map_div ys (fun y => dens y / mixAt a fun n => l n y)]
      exact div_self hs.ne'
    · intro r hr
      obtain ⟨z, -, rfl⟩ := List.mem_map.1 hr
      refine ⟨fun n => (hrho n z).le, ?_⟩
      simp only
      rw [← Finset.sum_div]
      exact div_self (mixAt_pos hN a _ ha).ne'
  refine ⟨hs, hB, ?_⟩
  intro n
  unfold rAlpha
  have hmem : (⟨y, dens y / mixAt a (fun n => l n y) / (ys.map fun y => dens y / mixAt a fun n => l n y).sum,
    fun n => a n * Real.exp (l n y) / mixAt a fun n => l n y⟩ : RRow d N) ∈ rowsReal a l dens ys :=
    List.mem_map.2 ⟨y, hy, rfl⟩
  have := List.single_le_sum (l := (rowsReal a l dens ys).map fun r => r.w * r.rho n) (by
    intro z hz
    obtain ⟨r, hr, rfl⟩ := List.mem_map.1 hz
    exact coef_nonneg hB n r hr) _ (List.mem_map.2 ⟨_, hmem, rfl⟩)
  refine lt_of_lt_of_le ?_ this
  exact mul_pos (div_pos (div_pos hpos (mixAt_pos hN a _ ha)) hs) (hrho n y)

/-- The points drawn in an iteration. -/
theorem draws (hN : 0 < N) (S : PMC d N) (a : Fin N → ℝ) (hm : S.modelWeights = (List.ofFn a).map XF.fin) (it : Iter d) (k : ℕ) :
    ∃ idx : ℕ → Fin N, mixtureSample N S.modelWeights it.bern (S.draw it) k
      = .ok ((List.range k).map fun j i => S.means (idx j) i + .fin (it.noise (idx j) j i)) := by
  obtain ⟨idx, h1, h2⟩ := mixtureSample_ok (List.ofFn a) (by
    intro h
    have := congrArg List.length h
    simp at this
    omega) it.bern (S.draw it) k
  rw [← hm] at h2
  simp only [List.length_ofFn] at h1 h2
  refine ⟨fun j => ⟨idx j, h1 j⟩, ?_⟩
  rw [h2]
  congr 1
  apply List.map_congr_left
  intro j _
  funext i
  simp [draw, h1 j]

theorem setWeights_prob (a : Fin N → ℝ) (ha : ∀ n, 0 < a n) (hN : 0 < N) (hs : ∑ n, a n = 1) :
    setWeights N (List.ofFn fun n => XF.fin (a n)) = .ok ((List.ofFn a).map XF.fin) := by
  have h3 : (List.ofFn fun n => XF.fin (a n)) = (List.ofFn a).map XF.fin := by
    rw [List.map_ofFn]; rfl
  have hcv : ((List.ofFn a).map XF.fin).map cleanVal = List.ofFn a := by
    rw [List.map_map]
    conv_rhs => rw [← List.map_id (List.ofFn a)]
    apply List.map_congr_left
    intro y hy
    rw [List.mem_ofFn] at hy
    obtain ⟨n, rfl⟩ := hy
    simp [cleanVal, ha n]
  have h4 := setWeights_eq ((List.ofFn a).map XF.fin) ⟨a ⟨0, hN⟩, ha _, by simp⟩ (by simp)
  have h5 : ((List.ofFn a).map XF.fin).length = N := by simp
  have hsum : (List.ofFn a).sum = 1 := by rw [List.sum_ofFn]; exact hs
  rw [hcv, hsum, h5] at h4
  rw [h3, h4]
  simp only [div_one]
  have : ((List.ofFn a).map XF.fin).map (fun w => cleanVal w) = List.ofFn a := hcv
  rw [this]

theorem badWeight_pos (x : ℝ) (h : 0 < x) : badWeight (XF.fin x) = false := by
  simp [badWeight, XF.isNan, XF.leb, h]

theorem nan_update (hd : 0 < d) (rows : List (Row d N)) (hne : rows ≠ []) (hw : ∀ r ∈ rows, ∀ n, r.w * r.rho n = .nan) :
    Computes rows ⟨fun _ => .nan, fun _ _ => .nan, fun _ => Matrix.diagonal fun _ => 10⟩ := by
  obtain ⟨r, hr⟩ := List.exists_mem_of_ne_nil _ hne
  intro n
  have ha : newAlpha rows n = .nan := sum_nan _ _ r hr (hw r hr n)
  refine ⟨ha, ?_, ?_⟩
  · funext j
    unfold newMean
    rw [ha]
    simp
  · apply failsafe_nan
    intro a b
    unfold newCov
    rw [ha]
    simp

/-- `adapt` on undefined rows. -/
theorem adapt_nan (hd : 0 < d) (rows : List (Row d N)) (hne : rows ≠ []) (hw : ∀ r ∈ rows, ∀ n, r.w * r.rho n = .nan)
    (S : PMC d N) : adapt rows S = ({ S with
        alpha := fun _ => .fin 0
        means := fun _ _ => .nan
        covs := fun _ => Matrix.diagonal fun _ => 10
        modelWeights := List.replicate N (.fin 0) }, none) := by
  rcases adapt_eq rows _ (nan_update hd rows hne hw) S with ⟨-, w, h1, h2⟩ | ⟨⟨n, h1⟩, -⟩
  · rw [h2]
    have hz := setWeights_zero (List.ofFn fun _ : Fin N => (XF.nan : XF ℝ)) (by
      intro w hw
      rw [List.mem_ofFn] at hw
      obtain ⟨n, rfl⟩ := hw
      rfl)
    simp only [XF.nan_div] at h1
    simp only [List.length_ofFn] at hz
    rw [hz] at h1
    cases h1
    simp only [XF.nan_div, Prod.mk.injEq, and_true]
    congr 1
  · exact absurd det_ten_pos h1

theorem body_of_adapt {k : ℕ} {target : (Fin d → XF ℝ) → XF ℝ} {it : Iter d} {S : PMC d N} {new : List (Fin d → XF ℝ)}
    {rows : List (Row d N)} {S3 : PMC d N}
    (h1 : mixtureSample N S.modelWeights it.bern (draw { S with numQ := S.numQ + k } it) k = .ok new)
    (h2 : rowsOf target { S with numQ := S.numQ + k } new = rows)
    (h3 : adapt rows { S with numQ := S.numQ + k, numPi := S.numPi + k, numQEval := S.numQEval + k * (1 + N) } = (S3, none)) :
    body k target it S = ({ S3 with samples := S3.samples ++ new, weights := S3.weights ++ rows.map Row.w }, none) := by
  unfold body
  simp only
  rw [h1]
  simp only
  rw [h2, h3]

theorem body_of_adapt_err {k : ℕ} {target : (Fin d → XF ℝ) → XF ℝ} {it : Iter d} {S : PMC d N} {new : List (Fin d → XF ℝ)}
    {rows : List (Row d N)} {S3 : PMC d N} {e : PyErr}
    (h1 : mixtureSample N S.modelWeights it.bern (draw { S with numQ := S.numQ + k } it) k = .ok new)
    (h2 : rowsOf target { S with numQ := S.numQ + k } new = rows)
    (h3 : adapt rows { S with numQ := S.numQ + k, numPi := S.numPi + k, numQEval := S.numQEval + k * (1 + N) } = (S3, some e)) :
    body k target it S = (S3, some e) := by
  unfold body
  simp only
  rw [h1]
  simp only
  rw [h2, h3]

/-- One iteration from a good state. -/
theorem body_good (hd : 0 < d) (hN : 0 < N) {k : ℕ} (hk : 0 < k) (S : PMC d N) (hS : Good k S)
    (target : (Fin d → XF ℝ) → XF ℝ) (ht : ∀ x : Fin d → ℝ, IsLogDensity (target (up x))) (it : Iter d) :
    ∃ (m : Fin N → Fin d → ℝ) (idx : ℕ → Fin N) (ys : List (Fin d → ℝ)), S.means = (fun n => up (m n)) ∧
      ys = ((List.range k).map fun j i => m (idx j) i + it.noise (idx j) j i) ∧
      (((∃ y ∈ ys, 0 < densOf (target (up y))) ∧ ∃ rs : List (RRow d N), rs.map RRow.x = ys ∧ IsBatch rs ∧
          (∀ n, 0 < rAlpha rs n) ∧
          (((∀ n, 0 < (rSafe (scatter rs (rMean rs n))).det) ∧ (body k target it S).2 = none ∧ Good k (body k target it S).1 ∧
              (body k target it S).1.samples = S.samples ++ ys.map up ∧
              (body k target it S).1.weights = S.weights ++ (rs.map fun r => XF.fin r.w) ∧
              (body k target it S).1.covs = fun n => rSafe (scatter rs (rMean rs n))) ∨
           ((∃ n, ¬ 0 < (rSafe (scatter rs (rMean rs n))).det) ∧ (body k target it S).2 = some .assertion))) ∨
       ((∀ y ∈ ys, densOf (target (up y)) = 0) ∧ (body k target it S).2 = none ∧ Poisoned (body k target it S).1 ∧
          (body k target it S).1.samples = S.samples ++ ys.map up)) := by
  obtain ⟨⟨m, a, hmeans, hdet, ha, hasum, halpha, hmw⟩, xs, bs, hxs, hbs, hbp, hlen⟩ := hS
  obtain ⟨idx, hdraw⟩ := draws hN { S with numQ := S.numQ + k } a hmw it k
  set ys := (List.range k).map fun j i => m (idx j) i + it.noise (idx j) j i with hys
  have hysl : ys.length = k := by simp [hys]
  have hnew : ((List.range k).map fun j i => S.means (idx j) i + XF.fin (it.noise (idx j) j i)) = ys.map up := by
    rw [hys, List.map_map]
    apply List.map_congr_left
    intro j _
    funext i
    rw [hmeans]
    rfl
  refine ⟨m, idx, ys, hmeans, rfl, ?_⟩
  choose l hl using fun n x => normalLog_fin (m n) (S.covs n) (hdet n) x
  have hl' : ∀ n x, normalLog (S.means n) (S.covs n) (up x) = .fin (l n x) := by
    intro n x; rw [hmeans]; exact hl n x
  obtain ⟨hraw, hrows⟩ := rows_good hN { S with numQ := S.numQ + k } a l ha hmw halpha hl' target ht ys
  rw [hnew] at hdraw
  by_cases hpos : ∃ y ∈ ys, 0 < densOf (target (up y))
  · left
    refine ⟨hpos, ?_⟩
    obtain ⟨hs, hB, hal⟩ := rowsReal_batch hN a l ha (fun y => densOf (target (up y)))
      (fun y => densOf_nonneg _) ys hpos
    have hrows := hrows hs.ne'
    set rs := rowsReal a l (fun y => densOf (target (up y))) ys with hrs
    have hrx : rs.map RRow.x = ys := by
      rw [hrs]
      unfold rowsReal
      rw [List.map_map]
      conv_rhs => rw [← List.map_id ys]
      rfl
    refine ⟨rs, hrx, hB, hal, ?_⟩
    have hcov : ∀ n, (updOf rs).cov n = rSafe (scatter rs (rMean rs n)) := by
      intro n; simp [updOf, (hal n).ne']
    have hmean : ∀ n, (updOf rs).mean n = up (rMean rs n) := by
      intro n; simp [updOf, (hal n).ne']
    rcases adapt_eq _ _ (computes_updOf hB)
      { S with numQ := S.numQ + k, numPi := S.numPi + k, numQEval := S.numQEval + k * (1 + N) }
      with ⟨h1, w, hw, h2⟩ | ⟨⟨n, h1⟩, h2, -⟩
    · left
      have hsumX : (List.ofFn (updOf rs).alpha).sum = XF.fin 1 := by
        have : List.ofFn (updOf rs).alpha = (List.ofFn fun n => rAlpha rs n).map XF.fin := by
          rw [List.map_ofFn]; rfl
        rw [this, XF.sum_map_fin, List.sum_ofFn, rAlpha_sum hB]
      have hdiv : ∀ n, (updOf rs).alpha n / (List.ofFn (updOf rs).alpha).sum = XF.fin (rAlpha rs n) := by
        intro n
        rw [hsumX]
        show XF.fin _ / XF.fin 1 = _
        rw [XF.fin_div_ne _ _ one_ne_zero, div_one]
      simp only [hdiv, badWeight_pos _ (hal _)] at hw h2
      rw [setWeights_prob _ hal hN (rAlpha_sum hB)] at hw
      cases hw
      rw [body_of_adapt (S := S) hdraw hrows h2]
      have hws : (rs.map RRow.up).map Row.w = (rs.map RRow.w).map XF.fin := by
        rw [List.map_map, List.map_map]; rfl
      refine ⟨fun n => by rw [← hcov]; exact h1 n, rfl, ⟨⟨rMean rs, rAlpha rs, ?_, h1, hal, rAlpha_sum hB, ?_, rfl⟩,
        xs ++ ys, bs ++ [rs.map RRow.w], ?_, ?_, ?_, ?_⟩, rfl, ?_, funext hcov⟩
      · funext n; exact hmean n
      · simp
      · simp [hxs]
      · simp only [hws, hbs]
        simp
      · intro b hb
        rcases List.mem_append.1 hb with hb | hb
        · exact hbp b hb
        · rw [List.mem_singleton] at hb
          subst hb
          refine ⟨?_, hB.weights⟩
          have := congrArg List.length hrx
          simp only [List.length_map] at this ⊢
          omega
      · simp [hlen, hysl]
        ring
      · simp only [hws, List.map_map]
        rfl
    · right
      refine ⟨⟨n, by rw [← hcov]; exact h1⟩, ?_⟩
      cases hb : adapt (rs.map RRow.up)
          { S with numQ := S.numQ + k, numPi := S.numPi + k, numQEval := S.numQEval + k * (1 + N) } with
      | mk S3 e =>
        rw [hb] at h2
        simp only at h2
        subst h2
        rw [body_of_adapt_err (S := S) hdraw hrows hb]
  · right
    push Not at hpos
    have hz : ∀ y ∈ ys, densOf (target (up y)) = 0 := fun y hy => le_antisymm (hpos y hy) (densOf_nonneg _)
    refine ⟨hz, ?_⟩
    have hyne : ys ≠ [] := by
      intro h
      rw [h] at hysl
      simp at hysl
      omega
    have hsum : (ys.map fun y => densOf (target (up y)) / mixAt a fun n => l n y).sum = 0 := by
      apply List.sum_eq_zero
      intro v hv
      obtain ⟨y, hy, rfl⟩ := List.mem_map.1 hv
      rw [hz y hy, zero_div]
    have hw : ∀ r ∈ rowsOf target { S with numQ := S.numQ + k } (ys.map up), r.w = .nan := by
      intro r hr
      unfold rowsOf at hr
      rw [hraw, XF.sum_map_fin, hsum] at hr
      obtain ⟨x, hx, rfl⟩ := List.mem_map.1 hr
      simp only
      have : rawWeight target { S with numQ := S.numQ + k } x ∈
          (ys.map up).map (rawWeight target { S with numQ := S.numQ + k }) := List.mem_map.2 ⟨x, hx, rfl⟩
      rw [hraw, List.map_map] at this
      obtain ⟨y, hy, he⟩ := List.mem_map.1 this
      rw [← he]
      simp [hz y hy, XF.fin_div, XF.infMul]
    have hne : rowsOf target { S with numQ := S.numQ + k } (ys.map up) ≠ [] := by
      unfold rowsOf
      simpa using hyne
    rw [body_of_adapt (S := S) hdraw rfl (adapt_nan hd _ hne (fun r hr n => by rw [hw r hr]; simp) _)]
    refine ⟨rfl, ⟨fun _ _ => rfl, fun _ => rfl, rfl, ?_⟩, rfl⟩
    obtain ⟨r, hr⟩ := List.exists_mem_of_ne_nil _ hne
    apply List.mem_append_right
    exact List.mem_map.2 ⟨r, hr, hw r hr⟩

/-- One iteration from a poisoned state. -/
theorem body_poisoned (hd : 0 < d) (hN : 0 < N) {k : ℕ} (hk : 0 < k) (S : PMC d N) (hS : Poisoned S)
    (target : (Fin d → XF ℝ) → XF ℝ) (it : Iter d) :
    (body k target it S).2 = none ∧ Poisoned (body k target it S).1 ∧
      (body k target it S).1.samples = S.samples ++ List.replicate k fun _ => .nan := by
  obtain ⟨hm, ha, hmw, hnan⟩ := hS
  obtain ⟨idx, hdraw⟩ := draws hN { S with numQ := S.numQ + k } (fun _ => 0) (by rw [hmw]; simp) it k
  have hnew : ((List.range k).map fun j i => S.means (idx j) i + XF.fin (it.noise (idx j) j i))
      = List.replicate k fun _ => .nan := by
    rw [List.eq_replicate_iff]
    refine ⟨by simp, ?_⟩
    intro b hb
    obtain ⟨j, -, rfl⟩ := List.mem_map.1 hb
    funext i
    rw [hm]
    simp
  rw [hnew] at hdraw
  have hne : rowsOf target { S with numQ := S.numQ + k } (List.replicate k fun _ => .nan) ≠ [] := by
    unfold rowsOf
    simp
    omega
  have hrho : ∀ r ∈ rowsOf target { S with numQ := S.numQ + k } (List.replicate k fun _ => .nan), ∀ n, r.rho n = .nan := by
    intro r hr n
    unfold rowsOf at hr
    obtain ⟨x, hx, rfl⟩ := List.mem_map.1 hr
    rw [List.mem_replicate] at hx
    simp only [hx.2]
    unfold posterior
    rw [normalLog_nan_point _ _ _ ⟨0, hd⟩ rfl]
    have : (XF.log (S.alpha n) + XF.nan : XF ℝ) = .nan := by simp
    show XF.exp (XF.log (S.alpha n) + XF.nan + -_) = _
    rw [this]
    simp [XF.exp]
  rw [body_of_adapt (S := S) hdraw rfl (adapt_nan hd _ hne (fun r hr n => by rw [hrho r hr]; simp) _)]
  refine ⟨rfl, ⟨fun _ _ => rfl, fun _ => rfl, rfl, List.mem_append_left _ hnan⟩, rfl⟩

end PMC
end Verif
