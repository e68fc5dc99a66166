import Verif.Model.MPMC
import Verif.Spec.MPMC
import Verif.Proof.Mixture
import Verif.Proof.AIS
import Verif.Proof.Loop
import Verif.Props.Normal
import Mathlib.Tactic.FieldSimp

/-!
# Lemmas on M-PMC
-/

set_option linter.unusedSectionVars false
set_option autoImplicit false

namespace Verif

open Matrix

variable {d N : ℕ}

namespace PMC

/-- New component weight for rows of numbers. -/
def rAlpha (rs : List (RRow d N)) (n : Fin N) : ℝ := (rs.map fun r => r.w * r.rho n).sum

/-- New mean for rows of numbers. -/
noncomputable def rMean (rs : List (RRow d N)) (n : Fin N) : Fin d → ℝ := fun j =>
  (rs.map fun r => r.w * r.rho n * r.x j).sum / rAlpha rs n

theorem sum_fin {α : Type*} (l : List α) (f : α → XF ℝ) (g : α → ℝ) (h : ∀ a ∈ l, f a = .fin (g a)) :
    (l.map f).sum = .fin (l.map g).sum := by
  rw [List.map_congr_left h]
  rw [← XF.sum_map_fin, List.map_map]
  rfl

theorem sum_nan {α : Type*} (l : List α) (f : α → XF ℝ) (a : α) (ha : a ∈ l) (h : f a = .nan) : (l.map f).sum = .nan := by
  induction l with
  | nil => cases ha
  | cons b l ih =>
    rcases List.mem_cons.1 ha with rfl | ha
    · simp [h]
    · simp [ih ha]

theorem newAlpha_up (rs : List (RRow d N)) (n : Fin N) : newAlpha (rs.map RRow.up) n = .fin (rAlpha rs n) := by
  unfold newAlpha rAlpha
  rw [List.map_map]
  exact sum_fin _ _ _ fun r _ => by simp [RRow.up]

theorem newMean_up (rs : List (RRow d N)) (n : Fin N) (h : rAlpha rs n ≠ 0) :
    newMean (rs.map RRow.up) n = up (rMean rs n) := by
  funext j
  unfold newMean
  rw [newAlpha_up, List.map_map,
    sum_fin rs _ (fun r => r.w * r.rho n * r.x j) (fun r _ => by simp [RRow.up, Verif.up])]
  exact XF.fin_div_ne _ _ h

theorem covVal_up (rs : List (RRow d N)) (mu : Fin d → ℝ) (a b : Fin d) :
    covVal (rs.map RRow.up) (up mu) a b = .fin (scatter rs mu a b) := by
  unfold covVal scatter
  rw [List.map_map, Matrix.of_apply]
  exact sum_fin _ _ _ fun r _ => by simp [RRow.up, Verif.up]

theorem newCov_up (rs : List (RRow d N)) (n : Fin N) (h : rAlpha rs n ≠ 0) (a b : Fin d) :
    newCov (rs.map RRow.up) n a b = .fin (scatter rs (rMean rs n) a b) := by
  unfold newCov
  rw [newAlpha_up, newMean_up rs n h, List.map_map,
    sum_fin rs _ (fun r => r.w * r.rho n * scatter rs (rMean rs n) a b) (fun r _ => by
      simp [RRow.up, covVal_up])]
  rw [XF.fin_div_ne _ _ h, List.sum_map_mul_right]
  congr 1
  unfold rAlpha at *
  field_simp

open Classical in
/-- The failsafe on a matrix of numbers. -/
noncomputable def rSafe (M : Matrix (Fin d) (Fin d) ℝ) : Matrix (Fin d) (Fin d) ℝ :=
  if ∃ a b, 10 < M a b then Matrix.diagonal fun _ => 10 else M

theorem failsafe_up (C : Fin d → Fin d → XF ℝ) (M : Matrix (Fin d) (Fin d) ℝ) (h : ∀ a b, C a b = .fin (M a b)) :
    ∀ a b, failsafe C a b = .fin (rSafe M a b) := by
  intro a b
  unfold failsafe rSafe
  simp only [h]
  by_cases hc : ∃ a b, 10 < M a b
  · have hc' : (∃ a b, XF.isNan (XF.fin (M a b)) = true) ∨ ∃ a b, XF.ltb (XF.fin 10) (XF.fin (M a b)) = true := by
      right
      obtain ⟨a, b, h⟩ := hc
      exact ⟨a, b, by simpa [XF.ltb] using h⟩
    rw [if_pos hc', if_pos hc, Matrix.diagonal_apply]
    split <;> rfl
  · have hc' : ¬ ((∃ a b, XF.isNan (XF.fin (M a b)) = true) ∨ ∃ a b, XF.ltb (XF.fin 10) (XF.fin (M a b)) = true) := by
      rintro (⟨a, b, h⟩ | ⟨a, b, h⟩)
      · simp [XF.isNan] at h
      · exact hc ⟨a, b, by simpa [XF.ltb] using h⟩
    rw [if_neg hc', if_neg hc]
    exact h a b

theorem failsafe_nan (C : Fin d → Fin d → XF ℝ) (h : ∀ a b, C a b = .nan) :
    ∀ a b, failsafe C a b = .fin ((Matrix.diagonal fun _ : Fin d => (10 : ℝ)) a b) := by
  intro a b
  unfold failsafe
  rw [if_pos (Or.inl ⟨a, b, by rw [h]; rfl⟩), Matrix.diagonal_apply]
  split <;> rfl

theorem setMoments_fin (S : PMC d N) (n : Fin N) (mean : Fin d → XF ℝ) (C : Fin d → Fin d → XF ℝ)
    (M : Matrix (Fin d) (Fin d) ℝ) (h : ∀ a b, C a b = .fin (M a b)) :
    setMoments S n mean C = if 0 < M.det then
      ({ S with means := Function.update S.means n mean, covs := Function.update S.covs n M }, none)
      else (S, some .assertion) := by
  have hm : (Matrix.of fun a b => val (C a b)) = M := by
    ext a b
    simp [h, val]
  unfold setMoments
  have hf : ∀ a b, (C a b).isFin = true := by intro a b; rw [h]; rfl
  rw [hm]
  by_cases hd : 0 < M.det
  · rw [if_pos ⟨hf, hd⟩, if_pos hd]
  · rw [if_neg (fun h => hd h.2), if_neg hd]

theorem det_ten_pos : 0 < (Matrix.diagonal fun _ : Fin d => (10 : ℝ)).det := by
  rw [Matrix.det_diagonal]
  exact Finset.prod_pos fun _ _ => by norm_num

/-- What the update of one component computes: its weight, mean and covariance. -/
structure Upd (d N : ℕ) where
  alpha : Fin N → XF ℝ
  mean : Fin N → Fin d → XF ℝ
  cov : Fin N → Matrix (Fin d) (Fin d) ℝ

/-- The values computed from the rows. -/
def Computes (rows : List (Row d N)) (U : Upd d N) : Prop :=
  ∀ n, newAlpha rows n = U.alpha n ∧ newMean rows n = U.mean n ∧ ∀ a b, failsafe (newCov rows n) a b = .fin (U.cov n a b)

theorem adaptLoop_eq (rows : List (Row d N)) (U : Upd d N) (hU : Computes rows U) (ns : List (Fin N)) (S : PMC d N) :
    ((∀ n ∈ ns, 0 < (U.cov n).det) ∧ adaptLoop rows ns S = ({ S with
        alpha := fun n => if n ∈ ns then U.alpha n else S.alpha n
        means := fun n => if n ∈ ns then U.mean n else S.means n
        covs := fun n => if n ∈ ns then U.cov n else S.covs n }, none)) ∨
    ((∃ n ∈ ns, ¬ 0 < (U.cov n).det) ∧ (adaptLoop rows ns S).2 = some .assertion ∧
      (adaptLoop rows ns S).1.samples = S.samples ∧ (adaptLoop rows ns S).1.weights = S.weights) := by
  induction ns generalizing S with
  | nil => left; exact ⟨by simp, by simp [adaptLoop]⟩
  | cons n ns ih =>
    obtain ⟨h1, h2, h3⟩ := hU n
    unfold adaptLoop adaptOne
    rw [setMoments_fin _ _ _ _ _ h3, h1, h2]
    by_cases hd : 0 < (U.cov n).det
    · rw [if_pos hd]
      simp only
      rcases ih { S with
        alpha := Function.update S.alpha n (U.alpha n)
        means := Function.update S.means n (U.mean n)
        covs := Function.update S.covs n (U.cov n) } with ⟨h4, h5⟩ | ⟨⟨m, hm, h4⟩, h5⟩
      · left
        refine ⟨?_, ?_⟩
        · intro m hm
          rcases List.mem_cons.1 hm with rfl | hm
          · exact hd
          · exact h4 m hm
        · rw [h5]
          simp only [Prod.mk.injEq, and_true]
          congr 1 <;>
          · funext m
            by_cases hmn : m = n
            · subst hmn; simp
            · simp [hmn]
      · right
        exact ⟨⟨m, by simp [hm], h4⟩, h5⟩
    · rw [if_neg hd]
      right
      exact ⟨⟨n, by simp, hd⟩, rfl, rfl, rfl⟩

/-- `adapt` in terms of the computed values. -/
theorem adapt_eq (rows : List (Row d N)) (U : Upd d N) (hU : Computes rows U) (S : PMC d N) :
    ((∀ n, 0 < (U.cov n).det) ∧ ∃ w, setWeights N (List.ofFn fun n => U.alpha n / (List.ofFn U.alpha).sum) = .ok w ∧
      adapt rows S = ({ S with
        alpha := fun n => if badWeight (U.alpha n / (List.ofFn U.alpha).sum) then 0 else U.alpha n / (List.ofFn U.alpha).sum
        means := U.mean
        covs := U.cov
        modelWeights := w }, none)) ∨
    ((∃ n, ¬ 0 < (U.cov n).det) ∧ (adapt rows S).2 = some .assertion ∧
      (adapt rows S).1.samples = S.samples ∧ (adapt rows S).1.weights = S.weights) := by
  unfold adapt
  rcases adaptLoop_eq rows U hU (List.finRange N) S with ⟨h1, h2⟩ | ⟨⟨n, -, h1⟩, h2, h3, h4⟩
  · left
    rw [h2]
    refine ⟨fun n => h1 n (List.mem_finRange n), ?_⟩
    have hw : ∃ w, setWeights N (List.ofFn fun n => U.alpha n / (List.ofFn U.alpha).sum) = .ok w := by
      unfold setWeights
      rw [if_pos (by simp)]
      exact ⟨_, rfl⟩
    obtain ⟨w, hw⟩ := hw
    refine ⟨w, hw, ?_⟩
    simp only [List.mem_finRange, if_true]
    rw [hw]
  · right
    cases hb : adaptLoop rows (List.finRange N) S with
    | mk S' e =>
      rw [hb] at h2 h3 h4
      simp only at h2 h3 h4
      subst h2
      exact ⟨⟨n, h1⟩, rfl, h3, h4⟩

/-! ### densities of the mixture -/

theorem normalLog_fin (m : Fin d → ℝ) (cov : Matrix (Fin d) (Fin d) ℝ) (h : 0 < cov.det) (x : Fin d → ℝ) :
    ∃ l : ℝ, normalLog (up m) cov (up x) = .fin l := by
  unfold normalLog
  rw [if_pos ⟨fun _ => rfl, fun _ => rfl⟩, Normal.mk'_eq h]
  exact ⟨_, rfl⟩

theorem normalLog_nan_point (m : Fin d → XF ℝ) (cov : Matrix (Fin d) (Fin d) ℝ) (x : Fin d → XF ℝ) (i : Fin d)
    (h : x i = .nan) : normalLog m cov x = .nan := by
  unfold normalLog
  rw [if_neg]
  rintro ⟨-, h2⟩
  have := h2 i
  rw [h] at this
  cases this

/-! ### sampling -/

theorem multinomialGo_length {K : Type*} [Field K] [LinearOrder K] (bern : ℕ → K → Bool) (ps : List K) :
    ∀ (j : ℕ) (left : K), (multinomialGo bern j left ps).length = ps.length := by
  induction ps with
  | nil => intros; rfl
  | cons p ps ih =>
    intro j left
    cases ps with
    | nil => rfl
    | cons q ps =>
      unfold multinomialGo
      split
      · simp
      · simp [ih]

theorem foldl_max_mem (l : List ℕ) : ∀ a : ℕ, l.foldl max a = a ∨ l.foldl max a ∈ l := by
  induction l with
  | nil => intro a; left; rfl
  | cons b l ih =>
    intro a
    rw [List.foldl_cons]
    rcases ih (max a b) with h | h
    · rcases max_choice a b with hm | hm
      · left; rw [h, hm]
      · right; rw [h, hm]; simp
    · right; simp [h]

theorem le_foldl_max (l : List ℕ) : ∀ a : ℕ, a ≤ l.foldl max a ∧ ∀ x ∈ l, x ≤ l.foldl max a := by
  induction l with
  | nil => intro a; simp
  | cons b l ih =>
    intro a
    rw [List.foldl_cons]
    obtain ⟨h1, h2⟩ := ih (max a b)
    refine ⟨le_trans (le_max_left _ _) h1, ?_⟩
    intro x hx
    rcases List.mem_cons.1 hx with rfl | hx
    · exact le_trans (le_max_right _ _) h1
    · exact h2 x hx

theorem argmaxNat_lt (l : List ℕ) (h : l ≠ []) : argmaxNat l < l.length := by
  unfold argmaxNat
  rw [List.findIdx_lt_length]
  rcases foldl_max_mem l 0 with h1 | h1
  · cases l with
    | nil => exact absurd rfl h
    | cons a l =>
      refine ⟨a, by simp, ?_⟩
      have := (le_foldl_max (a :: l) 0).2 a (by simp)
      rw [h1] at this
      simp only [decide_eq_true_eq]
      rw [h1]
      omega
  · exact ⟨_, h1, by simp⟩

/-- Drawing from a mixture with finite weights: one point per draw, each from an existing component. -/
theorem mixtureSample_ok {Y : Type*} (ws : List ℝ) (hws : ws ≠ []) (bern : ℕ → ℕ → ℝ → Bool) (draw : ℕ → ℕ → Y) (n : ℕ) :
    ∃ idx : ℕ → ℕ, (∀ j, idx j < ws.length) ∧
      mixtureSample ws.length (ws.map XF.fin) bern draw n = .ok ((List.range n).map fun j => draw (idx j) j) := by
  refine ⟨fun j => argmaxNat (multinomial1 (bern j) ws), ?_, ?_⟩
  · intro j
    have hl := multinomialGo_length (bern j) ws 0 1
    have := argmaxNat_lt (multinomial1 (bern j) ws) (by
      intro h
      unfold multinomial1 at h
      rw [h] at hl
      exact hws (List.length_eq_zero_iff.1 hl.symm))
    unfold multinomial1 at *
    rwa [hl] at this
  · unfold mixtureSample
    rw [finites_map_fin]
    simp only
    apply mapM_except_ok
    intro j _
    have hl := multinomialGo_length (bern j) ws 0 1
    have := argmaxNat_lt (multinomial1 (bern j) ws) (by
      intro h
      unfold multinomial1 at h
      rw [h] at hl
      exact hws (List.length_eq_zero_iff.1 hl.symm))
    unfold multinomial1 at *
    rw [hl] at this
    rw [if_pos this]

/-! ### normalised batches -/

theorem coef_nonneg {rs : List (RRow d N)} (h : IsBatch rs) (n : Fin N) : ∀ r ∈ rs, 0 ≤ r.w * r.rho n := by
  intro r hr
  exact mul_nonneg (h.weights.1 _ (List.mem_map.2 ⟨r, hr, rfl⟩)) ((h.posterior r hr).1 n)

theorem rAlpha_nonneg {rs : List (RRow d N)} (h : IsBatch rs) (n : Fin N) : 0 ≤ rAlpha rs n := by
  apply List.sum_nonneg
  intro y hy
  obtain ⟨r, hr, rfl⟩ := List.mem_map.1 hy
  exact coef_nonneg h n r hr

theorem rAlpha_sum {rs : List (RRow d N)} (h : IsBatch rs) : ∑ n, rAlpha rs n = 1 := by
  have h1 : ∀ l : List (RRow d N), (∀ r ∈ l, ∑ n, r.rho n = 1) → ∑ n, rAlpha l n = (l.map RRow.w).sum := by
    intro l
    induction l with
    | nil => intro _; simp [rAlpha]
    | cons r l ih =>
      intro hl
      have ih := ih fun r hr => hl r (by simp [hr])
      simp only [rAlpha, List.map_cons, List.sum_cons, Finset.sum_add_distrib] at ih ⊢
      rw [ih, ← Finset.mul_sum, hl r (by simp), mul_one]
  rw [h1 rs fun r hr => (h.posterior r hr).2]
  exact h.weights.2

theorem batch_ne_nil {rs : List (RRow d N)} (h : IsBatch rs) : rs ≠ [] := by
  rintro rfl
  have := h.weights.2
  simp at this

theorem coef_zero {rs : List (RRow d N)} (h : IsBatch rs) (n : Fin N) (h0 : rAlpha rs n = 0) :
    ∀ r ∈ rs, r.w * r.rho n = 0 := by
  intro r hr
  apply le_antisymm _ (coef_nonneg h n r hr)
  rw [← h0]
  apply List.single_le_sum
  · intro y hy
    obtain ⟨r, hr, rfl⟩ := List.mem_map.1 hy
    exact coef_nonneg h n r hr
  · exact List.mem_map.2 ⟨r, hr, rfl⟩

open Classical in
/-- What `adapt` computes from a normalised batch. A component that gets weight zero gets an undefined mean. -/
noncomputable def updOf (rs : List (RRow d N)) : Upd d N where
  alpha n := .fin (rAlpha rs n)
  mean n := if rAlpha rs n = 0 then fun _ => .nan else up (rMean rs n)
  cov n := if rAlpha rs n = 0 then Matrix.diagonal fun _ => 10 else rSafe (scatter rs (rMean rs n))

theorem computes_updOf {rs : List (RRow d N)} (h : IsBatch rs) : Computes (rs.map RRow.up) (updOf rs) := by
  intro n
  refine ⟨newAlpha_up rs n, ?_, ?_⟩
  · simp only [updOf]
    by_cases h0 : rAlpha rs n = 0
    · rw [if_pos h0]
      funext j
      unfold newMean
      rw [newAlpha_up, h0, List.map_map, sum_fin rs _ (fun _ => 0) (fun r hr => by
        have := coef_zero h n h0 r hr
        simp only [Function.comp_apply, RRow.up, up, XF.fin_mul]
        rw [this, zero_mul])]
      simp [XF.fin_div, XF.infMul]
    · rw [if_neg h0]
      exact newMean_up rs n h0
  · unfold updOf
    by_cases h0 : rAlpha rs n = 0
    · simp only [if_pos h0]
      apply failsafe_nan
      intro a b
      obtain ⟨r, hr⟩ := List.exists_mem_of_ne_nil _ (batch_ne_nil h)
      have hmean : newMean (rs.map RRow.up) n = fun _ => .nan := by
        funext j
        unfold newMean
        rw [newAlpha_up, h0, List.map_map, sum_fin rs _ (fun _ => 0) (fun r hr => by
          have := coef_zero h n h0 r hr
          simp only [Function.comp_apply, RRow.up, up, XF.fin_mul]
          rw [this, zero_mul])]
        simp [XF.fin_div, XF.infMul]
      have hcv : covVal (rs.map RRow.up) (newMean (rs.map RRow.up) n) a b = .nan := by
        unfold covVal
        apply sum_nan _ _ r.up (List.mem_map.2 ⟨r, hr, rfl⟩)
        rw [hmean]
        show (r.up.x a + -XF.nan) * _ = XF.nan
        have : (-XF.nan : XF ℝ) = .nan := rfl
        rw [this]
        simp
      unfold newCov
      rw [sum_nan _ _ r.up (List.mem_map.2 ⟨r, hr, rfl⟩) (by rw [hcv]; simp)]
      simp
    · simp only [if_neg h0]
      exact failsafe_up _ _ fun a b => newCov_up rs n h0 a b

end PMC
end Verif
