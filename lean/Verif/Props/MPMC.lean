import Verif.Proof.MPMC
import Mathlib.LinearAlgebra.Matrix.PosDef
import Mathlib.LinearAlgebra.Matrix.Rank

/-!
# Properties C43, C44, C45, C80, C81, C82: mixture population Monte Carlo
-/

set_option linter.unusedSectionVars false
set_option autoImplicit false

namespace Verif

open Matrix

variable {d N : ℕ}

namespace PMC

/-- **C43** If `adapt` does not raise on a batch with normalised weights and posteriors, the new component weights form a
probability vector, the mixture model has the same weights, and the mean of each component of positive weight lies in the
convex hull of those samples of the batch that have positive weight. -/
theorem C43_adapt {rs : List (RRow d N)} (h : IsBatch rs) (S S' : PMC d N)
    (hS : adapt (rs.map RRow.up) S = (S', none)) :
    ∃ a : Fin N → ℝ, IsProbVec (List.ofFn a) ∧ S'.alpha = (fun n => XF.fin (a n)) ∧
      S'.modelWeights = (List.ofFn a).map XF.fin ∧
      ∀ n, 0 < a n → ∃ m, S'.means n = up m ∧ m ∈ convexHull ℝ {x | ∃ r ∈ rs, 0 < r.w ∧ r.x = x} := by
  have hsum : (List.ofFn fun n => rAlpha rs n).sum = 1 := by
    rw [List.sum_ofFn]
    exact rAlpha_sum h
  have hsumX : (List.ofFn (updOf rs).alpha).sum = XF.fin 1 := by
    have : List.ofFn (updOf rs).alpha = (List.ofFn fun n => rAlpha rs n).map XF.fin := by
      rw [List.map_ofFn]; rfl
    rw [this, XF.sum_map_fin, hsum]
  have hdiv : ∀ n, (updOf rs).alpha n / (List.ofFn (updOf rs).alpha).sum = XF.fin (rAlpha rs n) := by
    intro n
    rw [hsumX]
    show XF.fin _ / XF.fin 1 = _
    rw [XF.fin_div_ne _ _ one_ne_zero, div_one]
  refine ⟨rAlpha rs, ⟨?_, hsum⟩, ?_⟩
  · intro w hw
    rw [List.mem_ofFn] at hw
    obtain ⟨n, rfl⟩ := hw
    exact rAlpha_nonneg h n
  rcases adapt_eq _ _ (computes_updOf h) S with ⟨-, w, hw, he⟩ | ⟨-, he, -⟩
  · rw [hS] at he
    simp only [Prod.mk.injEq, and_true] at he
    subst he
    refine ⟨?_, ?_, ?_⟩
    · funext n
      simp only [hdiv]
      rw [clean_one _ (by simp)]
      have := rAlpha_nonneg h n
      simp only [cleanVal]
      split
      · rfl
      · congr 1; linarith
    · simp only [hdiv] at hw
      have h3 : (List.ofFn fun n => XF.fin (rAlpha rs n)) = (List.ofFn (rAlpha rs)).map XF.fin := by
        rw [List.map_ofFn]; rfl
      rw [h3] at hw
      have hcv : ((List.ofFn (rAlpha rs)).map XF.fin).map cleanVal = List.ofFn (rAlpha rs) := by
        rw [List.map_map]
        conv_rhs => rw [← List.map_id (List.ofFn (rAlpha rs))]
        apply List.map_congr_left
        intro y hy
        rw [List.mem_ofFn] at hy
        obtain ⟨n, rfl⟩ := hy
        have := rAlpha_nonneg h n
        simp only [Function.comp_apply, cleanVal, id]
        split
        · rfl
        · linarith
      obtain ⟨n, hn⟩ : ∃ n, 0 < rAlpha rs n := by
        by_contra hcon
        push Not at hcon
        have := rAlpha_sum h
        rw [Finset.sum_eq_zero fun n _ => le_antisymm (hcon n) (rAlpha_nonneg h n)] at this
        norm_num at this
      have h4 := setWeights_eq ((List.ofFn (rAlpha rs)).map XF.fin) ⟨rAlpha rs n, hn, by simp⟩ (by simp)
      rw [hcv, hsum] at h4
      have h5 : ((List.ofFn (rAlpha rs)).map XF.fin).length = N := by simp
      rw [h5, hw] at h4
      cases h4
      simp only [div_one]
      have : ((List.ofFn (rAlpha rs)).map XF.fin).map (fun w => cleanVal w) = List.ofFn (rAlpha rs) := hcv
      rw [this]
    · intro n hn
      refine ⟨rMean rs n, ?_, ?_⟩
      · simp [updOf, hn.ne']
      · have hm : rMean rs n = ∑ i : Fin rs.length, (rs[i.1].w * rs[i.1].rho n / rAlpha rs n) • rs[i.1].x := by
          funext j
          rw [Finset.sum_apply]
          simp only [Pi.smul_apply, smul_eq_mul]
          unfold rMean
          rw [← Fin.sum_univ_fun_getElem rs fun r => r.w * r.rho n * r.x j, Finset.sum_div]
          apply Finset.sum_congr rfl
          intro i _
          ring
        have hsub : ∀ i : Fin rs.length, rs[i.1].w * rs[i.1].rho n / rAlpha rs n ≠ 0 → 0 < rs[i.1].w := by
          intro i hi
          have hw := h.weights.1 rs[i.1].w (List.mem_map.2 ⟨rs[i.1], List.getElem_mem _, rfl⟩)
          apply lt_of_le_of_ne hw
          intro h0
          rw [← h0] at hi
          simp at hi
        have hF : ∑ i : Fin rs.length, rs[i.1].w * rs[i.1].rho n / rAlpha rs n = 1 := by
          rw [← Finset.sum_div, Fin.sum_univ_fun_getElem rs fun r => r.w * r.rho n]
          exact div_self hn.ne'
        classical
        rw [hm, ← Finset.sum_filter_of_ne (p := fun i : Fin rs.length => rs[i.1].w * rs[i.1].rho n / rAlpha rs n ≠ 0) (by
          intro i _ hi h0
          exact hi (by rw [h0, zero_smul]))]
        apply (convex_convexHull ℝ _).sum_mem
        · intro i _
          exact div_nonneg (coef_nonneg h n _ (List.getElem_mem _)) hn.le
        · rw [Finset.sum_filter_ne_zero]
          exact hF
        · intro i hi
          apply subset_convexHull
          exact ⟨rs[i.1], List.getElem_mem _, hsub i (Finset.mem_filter.1 hi).2, rfl⟩
  · rw [hS] at he
    cases he

/-- C45: the covariance the code computes for a component of positive weight is the unweighted scatter of the batch around
the new mean, whatever the weights are. -/
theorem C45_partial {rs : List (RRow d N)} (h : IsBatch rs) (n : Fin N)
    (hn : (rs.map fun r => r.w * r.rho n).sum ≠ 0) :
    ∃ mu, newMean (rs.map RRow.up) n = up mu ∧
      (∀ a b, newCov (rs.map RRow.up) n a b = XF.fin (scatter rs mu a b)) ∧
      (scatter rs mu - weightedCov rs n mu).PosSemidef := by
  refine ⟨rMean rs n, newMean_up rs n hn, newCov_up rs n hn, ?_⟩
  set mu := rMean rs n
  have hp : 0 < (rs.map fun r => r.w * r.rho n).sum := lt_of_le_of_ne (rAlpha_nonneg h n) (Ne.symm hn)
  set A := (rs.map fun r => r.w * r.rho n).sum with hA
  have hc : ∀ r ∈ rs, r.w * r.rho n / A ≤ 1 := by
    intro r hr
    rw [div_le_one hp]
    apply List.single_le_sum
    · intro y hy
      obtain ⟨r, hr, rfl⟩ := List.mem_map.1 hy
      exact coef_nonneg h n r hr
    · exact List.mem_map.2 ⟨r, hr, rfl⟩
  have key : ∀ l : List (RRow d N), (∀ r ∈ l, r.w * r.rho n / A ≤ 1) →
      (Matrix.of fun a b => (l.map fun r => (1 - r.w * r.rho n / A) * ((r.x a - mu a) * (r.x b - mu b))).sum
        : Matrix (Fin d) (Fin d) ℝ).PosSemidef := by
    intro l
    induction l with
    | nil =>
      intro _
      have : (Matrix.of fun a b => (([] : List (RRow d N)).map fun r => (1 - r.w * r.rho n / A) *
          ((r.x a - mu a) * (r.x b - mu b))).sum : Matrix (Fin d) (Fin d) ℝ) = 0 := by
        ext a b; simp
      rw [this]
      exact Matrix.PosSemidef.zero
    | cons r l ih =>
      intro hl
      have e : (Matrix.of fun a b => ((r :: l).map fun r => (1 - r.w * r.rho n / A) *
          ((r.x a - mu a) * (r.x b - mu b))).sum : Matrix (Fin d) (Fin d) ℝ)
          = (1 - r.w * r.rho n / A) • Matrix.vecMulVec (fun a => r.x a - mu a) (star fun a => r.x a - mu a)
          + Matrix.of fun a b => (l.map fun r => (1 - r.w * r.rho n / A) * ((r.x a - mu a) * (r.x b - mu b))).sum := by
        ext a b
        simp [Matrix.vecMulVec_apply]
      rw [e]
      apply Matrix.PosSemidef.add _ (ih fun r hr => hl r (by simp [hr]))
      apply Matrix.PosSemidef.smul (Matrix.posSemidef_vecMulVec_self_star _)
      have := hl r (by simp)
      linarith
  have e : scatter rs mu - weightedCov rs n mu
      = Matrix.of fun a b => (rs.map fun r => (1 - r.w * r.rho n / A) * ((r.x a - mu a) * (r.x b - mu b))).sum := by
    ext a b
    simp only [scatter, weightedCov, Matrix.sub_apply, Matrix.of_apply]
    have : ∀ l : List (RRow d N), (l.map fun r => (r.x a - mu a) * (r.x b - mu b)).sum
        - (l.map fun r => r.w * r.rho n / A * ((r.x a - mu a) * (r.x b - mu b))).sum
        = (l.map fun r => (1 - r.w * r.rho n / A) * ((r.x a - mu a) * (r.x b - mu b))).sum := by
      intro l
      induction l with
      | nil => simp
      | cons r l ih =>
        simp only [List.map_cons, List.sum_cons]
        rw [← ih]
        ring
    exact this rs
  rw [e]
  exact key rs hc

/-- **C45** (negation) Two samples 0 and 1 of weight 1/2 each, one component: the weighted covariance is 1/4, the code
computes 1/2. -/
theorem C45_refuted : ¬ ∀ (rs : List (RRow 1 1)), IsBatch rs → ∀ n, (rs.map fun r => r.w * r.rho n).sum ≠ 0 →
    ∃ mu, newMean (rs.map RRow.up) n = up mu ∧
      ∀ a b, newCov (rs.map RRow.up) n a b = XF.fin (weightedCov rs n mu a b) := by
  intro h
  have hb : IsBatch [(⟨![0], 1/2, ![1]⟩ : RRow 1 1), ⟨![1], 1/2, ![1]⟩] := by
    constructor
    · constructor
      · intro w hw
        simp at hw
        rw [hw]; norm_num
      · norm_num
    · intro r hr
      simp only [List.mem_cons, List.not_mem_nil, or_false] at hr
      rcases hr with rfl | rfl <;> simp
  have hs : (([(⟨![0], 1/2, ![1]⟩ : RRow 1 1), ⟨![1], 1/2, ![1]⟩]).map fun r => r.w * r.rho 0).sum ≠ 0 := by norm_num
  obtain ⟨mu, h1, h2⟩ := h _ hb 0 hs
  obtain ⟨mu', h3, h4, -⟩ := C45_partial hb 0 hs
  have hmu : mu = rMean [(⟨![0], 1/2, ![1]⟩ : RRow 1 1), ⟨![1], 1/2, ![1]⟩] 0 := by
    have := newMean_up _ 0 hs
    rw [h1] at this
    funext i
    have := congrFun this i
    simpa [up] using this
  have h5 := h2 0 0
  rw [newCov_up _ 0 hs, ← hmu] at h5
  have hmu0 : mu 0 = 1 / 2 := by
    rw [hmu]
    simp [rMean, rAlpha]
    norm_num
  simp [scatter, weightedCov, hmu0] at h5
  norm_num at h5

end PMC
end Verif
