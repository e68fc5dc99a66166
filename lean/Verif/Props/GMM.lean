import Verif.Model.GMM
import Verif.Props.Normal
import Verif.Props.Mixture
import Verif.Props.Grid
import Mathlib.LinearAlgebra.Matrix.PosDef

/-!
# Properties C69, C91, C92: Gaussian mixtures, random mixtures and egg boxes
-/

set_option linter.unusedSectionVars false
set_option autoImplicit false

namespace Verif

open Matrix

variable {d : ℕ}

/-! ### Specification -/

/-- Density at `x` of independent normal coordinates with means `m k` and variances `v k`. -/
noncomputable def gaussDiag (m v x : Fin d → ℝ) : ℝ :=
  ∏ k, Real.exp (-(x k - m k) ^ 2 / (2 * v k)) / Real.sqrt (2 * Real.pi * v k)

/-- Weighted sum of such densities. -/
noncomputable def gaussMix (means vars : List (Fin d → ℝ)) (w : List ℝ) (x : Fin d → ℝ) : ℝ :=
  (List.zipWith (fun (p : (Fin d → ℝ) × (Fin d → ℝ)) wi => wi * gaussDiag p.1 p.2 x) (List.zip means vars) w).sum

/-! ### Components -/

/-- The component object for a mean and a diagonal of variances. -/
noncomputable def diagNormal (p : (Fin d → ℝ) × (Fin d → ℝ)) : Normal d :=
  ⟨p.1, diagonal p.2, (diagonal p.2).det, (diagonal p.2)⁻¹, -(1/2) * d * Real.log (Real.pi * 2), -(1/2) * Real.log (diagonal p.2).det⟩

theorem posDef_diag {v : Fin d → ℝ} (hv : ∀ k, 0 < v k) : (diagonal v).PosDef := by
  exact Matrix.PosDef.diagonal hv

theorem diag_mk {m v : Fin d → ℝ} (hv : ∀ k, 0 < v k) : Normal.mk' m (diagonal v) = .ok (diagNormal (m, v)) :=
  Normal.mk'_eq (posDef_diag hv).det_pos

theorem diag_prob {m v : Fin d → ℝ} (hv : ∀ k, 0 < v k) (x : Fin d → ℝ) :
    Real.exp ((diagNormal (m, v)).logProb1 x) = gaussDiag m v x := by
  obtain ⟨s, hs, hval, -⟩ := C09_normal_density m (diagonal v) (posDef_diag hv)
  rw [diag_mk hv] at hs
  have hs : diagNormal (m, v) = s := by injection hs
  have := hval x
  rw [← hs] at this
  rw [show Real.exp ((diagNormal (m, v)).logProb1 x) = (diagNormal (m, v)).prob1 x from rfl, this]
  have hinv : (diagonal v)⁻¹ = diagonal fun k => (v k)⁻¹ := by
    apply Matrix.inv_eq_right_inv
    rw [diagonal_mul_diagonal, ← diagonal_one]
    congr 1
    funext k
    exact mul_inv_cancel₀ (hv k).ne'
  rw [hinv, det_diagonal]
  unfold gaussDiag
  rw [Finset.prod_div_distrib, ← Real.exp_sum]
  congr 1
  · congr 1
    simp only [dotProduct, mulVec_diagonal, Finset.mul_sum, Pi.sub_apply]
    apply Finset.sum_congr rfl
    intro k _
    have := (hv k).ne'
    field_simp
  · rw [← Real.sqrt_prod _ (fun k _ => by have := hv k; positivity)]
    congr 1
    rw [Finset.prod_mul_distrib]
    simp

/-! ### C91 -/

theorem mixDensity_gauss (ps : List ((Fin d → ℝ) × (Fin d → ℝ))) (hv : ∀ p ∈ ps, ∀ k, 0 < p.2 k) (w : List ℝ)
    (x : Fin d → ℝ) : mixDensity (ps.map fun p => fun x => XF.fin ((diagNormal p).logProb1 x)) w x =
      (List.zipWith (fun p wi => wi * gaussDiag p.1 p.2 x) ps w).sum := by
  unfold mixDensity
  induction ps generalizing w with
  | nil => simp
  | cons p ps ih =>
    cases w with
    | nil => simp
    | cons a w =>
      simp only [List.map_cons, List.zipWith_cons_cons, List.sum_cons]
      rw [ih (fun q hq => hv q (List.mem_cons_of_mem _ hq)) w]
      congr 2
      exact diag_prob (hv p (by simp)) x

/-- What the constructor builds when the variances are positive. -/
theorem gmm_mk (means sigmas : List (Fin d → ℝ)) (hne : means ≠ []) (hl : sigmas.length = means.length)
    (hv : ∀ v ∈ sigmas, ∀ k, 0 < v k) (ws : Option (List (XF ℝ))) (support : (Fin d → ℝ) × (Fin d → ℝ)) :
    GMM.mk' means sigmas ws support =
      match Mixture.mk' ((List.zip means sigmas).map fun p => fun x => XF.fin ((diagNormal p).logProb1 x))
          (ws.getD (List.replicate means.length (.fin (1 / means.length)))) with
      | .error e => .error e
      | .ok m => .ok ⟨(List.zip means sigmas).map diagNormal, means, sigmas,
          ws.getD (List.replicate means.length (.fin (1 / means.length))), support, m⟩ := by
  unfold GMM.mk'
  rw [if_neg hne, mapM_except_ok _ diagNormal _ (fun p hp => diag_mk (hv p.2 (List.of_mem_zip hp).2))]
  simp only [List.map_map]
  rfl

/-- The weights used when none are given are usable. -/
theorem usable_default (n : ℕ) (hn : 0 < n) : UsableWeights (List.replicate n (XF.fin (1 / (n : ℝ)))) := by
  refine ⟨⟨1 / n, by positivity, by simp; omega⟩, ?_⟩
  simp [List.mem_replicate]

open MeasureTheory in
/-- **C91.** For any number of components, any means, positive variances and usable weights of the right number (or no
weights), the constructor succeeds, `prob` is the weighted sum of the normal densities for a probability vector of
weights, `log_prob` is its logarithm, and it integrates to one. -/
theorem C91_gmm_density (means sigmas : List (Fin d → ℝ)) (hne : means ≠ []) (hl : sigmas.length = means.length)
    (hv : ∀ v ∈ sigmas, ∀ k, 0 < v k) (ws : Option (List (XF ℝ)))
    (hw : ∀ l, ws = some l → l.length = means.length ∧ UsableWeights l) (support : (Fin d → ℝ) × (Fin d → ℝ)) :
    ∃ g w, GMM.mk' means sigmas ws support = .ok g ∧ IsProbVec w ∧ w.length = means.length ∧
      (ws = none → w = List.replicate means.length (1 / (means.length : ℝ))) ∧
      (∀ q : List ℝ, ws = some (q.map .fin) → (∀ x ∈ q, 0 ≤ x) → w = q.map (· / q.sum)) ∧
      (∀ data, g.prob data = data.map fun x => .fin (gaussMix means sigmas w x)) ∧
      (∀ data, g.logProb data = data.map fun x => .fin (Real.log (gaussMix means sigmas w x))) ∧
      (∀ x, 0 < gaussMix means sigmas w x) ∧
      Integrable (gaussMix means sigmas w) ∧ ∫ x, gaussMix means sigmas w x = 1 := by
  set w0 := ws.getD (List.replicate means.length (.fin (1 / means.length))) with hw0
  have hlen0 : 0 < means.length := List.length_pos_of_ne_nil hne
  have hus : w0.length = means.length ∧ UsableWeights w0 := by
    cases ws with
    | none => exact ⟨by simp [hw0], by rw [hw0]; exact usable_default _ hlen0⟩
    | some l => exact hw l rfl
  set ps := List.zip means sigmas with hps
  have hpl : ps.length = means.length := by simp [hps, hl]
  have hpv : ∀ p ∈ ps, ∀ k, 0 < p.2 k := fun p hp => hv p.2 (List.of_mem_zip hp).2
  set models : List ((Fin d → ℝ) → XF ℝ) := ps.map fun p => fun x => XF.fin ((diagNormal p).logProb1 x) with hmod
  have hld : ∀ f ∈ models, ∀ x, IsLogDensity (f x) := by
    intro f hf x
    obtain ⟨p, _, rfl⟩ := List.mem_map.1 hf
    exact .inr ⟨_, rfl⟩
  obtain ⟨m, w, hmk, hmw, hp, hlen, hprob, hlog, hbd⟩ := C03_prob_logprob_agree models w0
    (by simp [hmod, hpl, hus.1]) hus.2 hld
  have hmix : ∀ x, mixDensity models w x = gaussMix means sigmas w x := mixDensity_gauss ps hpv w
  have hdens : ∀ f ∈ models, Integrable (fun x => densOf (f x)) ∧ ∫ x, densOf (f x) = 1 := by
    intro f hf
    obtain ⟨p, hp, rfl⟩ := List.mem_map.1 hf
    obtain ⟨s, hs, -, -, -, -, h1, h2⟩ := C09_normal_density p.1 (diagonal p.2) (posDef_diag (hpv p hp))
    rw [diag_mk (hpv p hp)] at hs
    have hs : diagNormal p = s := by injection hs
    subst hs
    exact ⟨h1, h2⟩
  have hint := mixDensity_integral volume models w hlen.symm (fun f hf => (hdens f hf).1) (fun f hf => (hdens f hf).2)
  have hpos : ∀ x, 0 < gaussMix means sigmas w x := by
    intro x
    obtain ⟨lo, hlo, hlo'⟩ : ∃ lo : ℝ, 0 < lo ∧ ∀ f ∈ models, lo ≤ densOf (f x) := by
      have : ∀ l : List ((Fin d → ℝ) → XF ℝ), (∀ f ∈ l, 0 < densOf (f x)) → ∃ lo : ℝ, 0 < lo ∧ ∀ f ∈ l, lo ≤ densOf (f x) := by
        intro l
        induction l with
        | nil => intro _; exact ⟨1, one_pos, by simp⟩
        | cons f l ih =>
          intro h
          obtain ⟨lo, h1, h2⟩ := ih fun f hf => h f (List.mem_cons_of_mem _ hf)
          refine ⟨min lo (densOf (f x)), lt_min h1 (h f (by simp)), ?_⟩
          intro g hg
          rcases List.mem_cons.1 hg with rfl | hg
          · exact min_le_right _ _
          · exact (min_le_left _ _).trans (h2 g hg)
      apply this
      intro f hf
      obtain ⟨p, _, rfl⟩ := List.mem_map.1 hf
      exact Real.exp_pos _
    obtain ⟨M, hM⟩ : ∃ M, ∀ f ∈ models, densOf (f x) ≤ M :=
      ⟨(models.map fun f => densOf (f x)).sum, fun f hf =>
        List.single_le_sum (by
          intro y hy
          obtain ⟨g, hg, rfl⟩ := List.mem_map.mp hy
          exact densOf_nonneg _) _ (List.mem_map.mpr ⟨f, hf, rfl⟩)⟩
    have := (hbd x lo M fun f hf => ⟨hlo' f hf, hM f hf⟩).1
    rw [hmix] at this
    linarith
  have hwn : ∀ q : List ℝ, w0 = q.map .fin → (∀ x ∈ q, 0 ≤ x) → w = q.map (· / q.sum) := by
    intro q hq hq0
    have e := setWeights_eq w0 hus.2.1 hus.2.2
    have e2 : setWeights models.length w0 = .ok (w.map .fin) := by
      unfold Mixture.mk' at hmk
      cases h : setWeights models.length w0 with
      | error e => rw [h] at hmk; simp [Except.map] at hmk
      | ok v => rw [h] at hmk; simp [Except.map] at hmk; rw [← hmw, ← hmk]
    rw [show models.length = w0.length by simp [hmod, hpl, hus.1], e] at e2
    have e3 := List.map_injective_iff.2 (fun a b h => by injection h) (Except.ok.inj e2)
    have hcv : (w0.map cleanVal) = q := by
      rw [hq, List.map_map]
      conv_rhs => rw [← List.map_id q]
      apply List.map_congr_left
      intro x hx
      have := hq0 x hx
      simp only [Function.comp, cleanVal, id]
      split_ifs <;> linarith
    rw [hcv] at e3
    rw [← e3, show (w0.map fun v => cleanVal v / q.sum) = (w0.map cleanVal).map (· / q.sum) by rw [List.map_map]; rfl, hcv]
  refine ⟨⟨ps.map diagNormal, means, sigmas, w0, support, m⟩, w, ?_, hp, ?_, ?_, ?_, ?_, ?_, hpos, ?_, ?_⟩
  · rw [gmm_mk means sigmas hne hl hv]
    simp only [← hw0, ← hps, ← hmod, hmk]
  · rw [hlen, hmod, List.length_map, hpl]
  · intro hn
    have := hwn (List.replicate means.length (1 / (means.length : ℝ))) (by rw [hw0, hn]; simp)
      (by intro x hx; rw [(List.mem_replicate.1 hx).2]; positivity)
    rw [this]
    have h0 : (means.length : ℝ) ≠ 0 := by exact_mod_cast hlen0.ne'
    simp [h0]
  · intro q hq; exact hwn q (by rw [hw0, hq]; rfl)
  · intro data
    show m.prob data = _
    rw [hprob]
    simp only [hmix]
  · intro data
    show m.logProb data = _
    rw [hlog]
    apply List.map_congr_left
    intro x _
    rw [hmix, if_neg (hpos x).ne']
  · exact (funext hmix : mixDensity models w = _) ▸ hint.1
  · rw [← hp.2, ← hint.2]
    simp only [hmix]

/-- Two components in the plane with weights 3 and 1. -/
example : ([![0, 0], ![1, 2]] : List (Fin 2 → ℝ)) ≠ [] ∧ (∀ v ∈ ([![1, 2], ![1/2, 3]] : List (Fin 2 → ℝ)), ∀ k, 0 < v k) ∧
    UsableWeights [XF.fin (3 : ℝ), .fin 1] := by
  refine ⟨by simp, ?_, ⟨⟨3, by norm_num, by simp⟩, by simp⟩⟩
  intro v hv k
  simp only [List.mem_cons, List.not_mem_nil, or_false] at hv
  rcases hv with rfl | rfl <;> fin_cases k <;> norm_num

/-! ### C69 -/

/-- The components stay inside the space with the given margin, and the support covers them with that margin and stays
inside the space. -/
structure Fits (g : GMM d) (spaceMin spaceMax : Fin d → ℝ) (margin : Normal d → Fin d → ℝ) : Prop where
  mean : ∀ c ∈ g.comps, ∀ k, spaceMin k + margin c k ≤ c.loc k ∧ c.loc k ≤ spaceMax k - margin c k
  covers : ∀ c ∈ g.comps, ∀ k, g.support.1 k ≤ c.loc k - margin c k ∧ c.loc k + margin c k ≤ g.support.2 k
  inside : ∀ k, spaceMin k ≤ g.support.1 k ∧ g.support.2 k ≤ spaceMax k

/-- Five standard deviations of a component, per coordinate. -/
noncomputable def fiveStd (c : Normal d) (k : Fin d) : ℝ := 5 * Real.sqrt (c.scale k k)

/-- Five variances of a component, per coordinate. -/
noncomputable def fiveVar (c : Normal d) (k : Fin d) : ℝ := 5 * c.scale k k

/-- Draws of `np.random.uniform` before scaling. -/
def UnitDraw (u : ℝ) : Prop := 0 ≤ u ∧ u < 1

theorem minAxis0_spec (rows : List (Fin d → ℝ)) (h : rows ≠ []) : ∃ m, minAxis0 rows = .ok m ∧
    ∀ k, (∀ r ∈ rows, m k ≤ r k) ∧ ∃ r ∈ rows, m k = r k := by
  obtain ⟨r, rs, rfl⟩ := List.exists_cons_of_ne_nil h
  refine ⟨_, rfl, fun k => ?_⟩
  clear h
  induction rs generalizing r with
  | nil => simp
  | cons a rs ih =>
    simp only [List.foldl_cons]
    obtain ⟨h1, x, hx, hx'⟩ := ih (fun k => min (r k) (a k))
    refine ⟨?_, ?_⟩
    · intro y hy
      have hm := h1 (fun k => min (r k) (a k)) (List.mem_cons_self ..)
      rcases List.mem_cons.1 hy with rfl | hy
      · exact hm.trans (min_le_left _ _)
      · rcases List.mem_cons.1 hy with rfl | hy
        · exact hm.trans (min_le_right _ _)
        · exact h1 y (List.mem_cons_of_mem _ hy)
    · rcases List.mem_cons.1 hx with rfl | hx
      · rcases min_choice (r k) (a k) with h | h
        · exact ⟨r, by simp, by rw [hx']; exact h⟩
        · exact ⟨a, by simp, by rw [hx']; exact h⟩
      · exact ⟨x, by simp [hx], hx'⟩

theorem maxAxis0_spec (rows : List (Fin d → ℝ)) (h : rows ≠ []) : ∃ m, maxAxis0 rows = .ok m ∧
    ∀ k, (∀ r ∈ rows, r k ≤ m k) ∧ ∃ r ∈ rows, m k = r k := by
  obtain ⟨r, rs, rfl⟩ := List.exists_cons_of_ne_nil h
  refine ⟨_, rfl, fun k => ?_⟩
  clear h
  induction rs generalizing r with
  | nil => simp
  | cons a rs ih =>
    simp only [List.foldl_cons]
    obtain ⟨h1, x, hx, hx'⟩ := ih (fun k => max (r k) (a k))
    refine ⟨?_, ?_⟩
    · intro y hy
      have hm := h1 (fun k => max (r k) (a k)) (List.mem_cons_self ..)
      rcases List.mem_cons.1 hy with rfl | hy
      · exact (le_max_left _ _).trans hm
      · rcases List.mem_cons.1 hy with rfl | hy
        · exact (le_max_right _ _).trans hm
        · exact h1 y (List.mem_cons_of_mem _ hy)
    · rcases List.mem_cons.1 hx with rfl | hx
      · rcases max_choice (r k) (a k) with h | h
        · exact ⟨r, by simp, by rw [hx']; exact h⟩
        · exact ⟨a, by simp, by rw [hx']; exact h⟩
      · exact ⟨x, by simp [hx], hx'⟩

theorem npUniform_bounds {lo hi u : ℝ} (h : lo ≤ hi) (hu : UnitDraw u) : lo ≤ npUniform lo hi u ∧ npUniform lo hi u ≤ hi := by
  unfold npUniform
  constructor
  · nlinarith [mul_nonneg (sub_nonneg.2 h) hu.1]
  · nlinarith [mul_le_mul_of_nonneg_left hu.2.le (sub_nonneg.2 h)]

/-- Explicit result of the generator: components are built from the draws one by one. -/
theorem randomGMM_eq (spaceMin spaceMax : Fin d → ℝ) (n : ℕ) (hn : 0 < n) (sMin sMax : Fin d → ℝ)
    (hs : ∀ k, 0 < sMin k ∧ sMin k ≤ sMax k) (uS uM : ℕ → Fin d → ℝ) (uW : ℕ → ℝ) (hS : ∀ i k, UnitDraw (uS i k)) :
    ∃ g, randomGMM spaceMin spaceMax n sMin sMax uS uM uW = .ok g ∧
      g.comps = (List.range n).map (fun i => diagNormal
        (fun k => npUniform (spaceMin k + 5 * npUniform (sMin k) (sMax k) (uS i k))
            (spaceMax k - 5 * npUniform (sMin k) (sMax k) (uS i k)) (uM i k),
          fun k => npUniform (sMin k) (sMax k) (uS i k))) ∧
      ∀ k, ((∀ c ∈ g.comps, g.support.1 k ≤ c.loc k - fiveVar c k ∧ c.loc k + fiveVar c k ≤ g.support.2 k) ∧
        (∃ c ∈ g.comps, g.support.1 k = c.loc k - fiveVar c k) ∧ ∃ c ∈ g.comps, g.support.2 k = c.loc k + fiveVar c k) := by
  set sig : ℕ → Fin d → ℝ := fun i k => npUniform (sMin k) (sMax k) (uS i k) with hsig
  set mu : ℕ → Fin d → ℝ := fun i k => npUniform (spaceMin k + 5 * sig i k) (spaceMax k - 5 * sig i k) (uM i k) with hmu
  have hne : (List.range n).map mu ≠ [] := by simp; omega
  have hzl : List.zipWith (fun (m c : Fin d → ℝ) => fun k => m k - 5 * c k) ((List.range n).map mu) ((List.range n).map sig) =
      (List.range n).map fun i => fun k => mu i k - 5 * sig i k := by
    rw [List.zipWith_map, List.zipWith_self]
  have hzh : List.zipWith (fun (m c : Fin d → ℝ) => fun k => m k + 5 * c k) ((List.range n).map mu) ((List.range n).map sig) =
      (List.range n).map fun i => fun k => mu i k + 5 * sig i k := by
    rw [List.zipWith_map, List.zipWith_self]
  obtain ⟨lo, hlo, hlo'⟩ := minAxis0_spec ((List.range n).map fun i => fun k => mu i k - 5 * sig i k) (by simp; omega)
  obtain ⟨hi, hhi, hhi'⟩ := maxAxis0_spec ((List.range n).map fun i => fun k => mu i k + 5 * sig i k) (by simp; omega)
  have hv : ∀ v ∈ (List.range n).map sig, ∀ k, 0 < v k := by
    intro v hv k
    obtain ⟨i, _, rfl⟩ := List.mem_map.1 hv
    exact lt_of_lt_of_le (hs k).1 (npUniform_bounds (hs k).2 (hS i k)).1
  have hzip : List.zip ((List.range n).map mu) ((List.range n).map sig) = (List.range n).map fun i => (mu i, sig i) := by
    rw [List.zip_map', ]
  have hmk : ∃ m, Mixture.mk' ((List.zip ((List.range n).map mu) ((List.range n).map sig)).map fun p => fun x => XF.fin ((diagNormal p).logProb1 x))
      (((List.range n).map uW).map fun w => (.fin w / .fin ((List.range n).map uW).sum : XF ℝ)) = .ok m := by
    unfold Mixture.mk' setWeights
    rw [if_pos (by simp)]
    exact ⟨_, rfl⟩
  obtain ⟨m, hm⟩ := hmk
  refine ⟨⟨(List.zip ((List.range n).map mu) ((List.range n).map sig)).map diagNormal, (List.range n).map mu, (List.range n).map sig,
    ((List.range n).map uW).map fun w => .fin w / .fin ((List.range n).map uW).sum, (lo, hi), m⟩, ?_, ?_, ?_⟩
  · unfold randomGMM
    show (match minAxis0 (List.zipWith (fun (m c : Fin d → ℝ) => fun k => m k - 5 * c k) ((List.range n).map mu) ((List.range n).map sig)) with
      | .error e => (Except.error e : Except PyErr (GMM d))
      | .ok lo =>
        match maxAxis0 (List.zipWith (fun (m c : Fin d → ℝ) => fun k => m k + 5 * c k) ((List.range n).map mu) ((List.range n).map sig)) with
        | .error e => (Except.error e : Except PyErr (GMM d))
        | .ok hi => GMM.mk' ((List.range n).map mu) ((List.range n).map sig) (some _) (lo, hi)) = _
    rw [hzl, hzh, hlo, hhi]
    simp only
    rw [gmm_mk _ _ hne (by simp) hv]
    simp only [Option.getD_some, hm]
  · simp only [hzip, List.map_map]
    rfl
  · intro k
    simp only [hzip, List.map_map, List.mem_map, List.mem_range, Function.comp]
    have hf : ∀ i, fiveVar (diagNormal (mu i, sig i)) k = 5 * sig i k := by intro i; simp [fiveVar, diagNormal]
    have hloc : ∀ i, (diagNormal (mu i, sig i)).loc k = mu i k := fun i => rfl
    refine ⟨?_, ?_, ?_⟩
    · rintro c ⟨i, hi', rfl⟩
      rw [hf, hloc]
      exact ⟨(hlo' k).1 (fun k => mu i k - 5 * sig i k) (List.mem_map.2 ⟨i, List.mem_range.2 hi', rfl⟩),
        (hhi' k).1 (fun k => mu i k + 5 * sig i k) (List.mem_map.2 ⟨i, List.mem_range.2 hi', rfl⟩)⟩
    · obtain ⟨r, hr, hr'⟩ := (hlo' k).2
      obtain ⟨i, hi', rfl⟩ := List.mem_map.1 hr
      exact ⟨_, ⟨i, List.mem_range.1 hi', rfl⟩, by rw [hf, hloc]; exact hr'⟩
    · obtain ⟨r, hr, hr'⟩ := (hhi' k).2
      obtain ⟨i, hi', rfl⟩ := List.mem_map.1 hr
      exact ⟨_, ⟨i, List.mem_range.1 hi', rfl⟩, by rw [hf, hloc]; exact hr'⟩

/-- **C69, partial.** For every positive number of components, every space at least ten maximal variances wide and every
outcome of the generator, the mixture has the requested number of components, their covariances are diagonal with
entries within the requested bounds, and components and support fit the space with a margin of five *variances*.
(Missing: a margin of five standard deviations, see `C69_refuted`; with no components the code raises.) -/
theorem C69_partial (spaceMin spaceMax : Fin d → ℝ) (n : ℕ) (hn : 0 < n) (sMin sMax : Fin d → ℝ)
    (hs : ∀ k, 0 < sMin k ∧ sMin k ≤ sMax k) (hwide : ∀ k, 10 * sMax k ≤ spaceMax k - spaceMin k)
    (uS uM : ℕ → Fin d → ℝ) (uW : ℕ → ℝ) (hS : ∀ i k, UnitDraw (uS i k)) (hM : ∀ i k, UnitDraw (uM i k)) :
    ∃ g, randomGMM spaceMin spaceMax n sMin sMax uS uM uW = .ok g ∧ g.comps.length = n ∧
      (∀ c ∈ g.comps, ∃ v : Fin d → ℝ, c.scale = diagonal v ∧ ∀ k, 0 < v k ∧ sMin k ≤ v k ∧ v k ≤ sMax k) ∧
      Fits g spaceMin spaceMax fiveVar := by
  obtain ⟨g, hg, hc, hsup⟩ := randomGMM_eq spaceMin spaceMax n hn sMin sMax hs uS uM uW hS
  have hsb : ∀ i k, sMin k ≤ npUniform (sMin k) (sMax k) (uS i k) ∧ npUniform (sMin k) (sMax k) (uS i k) ≤ sMax k :=
    fun i k => npUniform_bounds (hs k).2 (hS i k)
  have hmean : ∀ c ∈ g.comps, ∀ k, spaceMin k + fiveVar c k ≤ c.loc k ∧ c.loc k ≤ spaceMax k - fiveVar c k := by
    intro c hcm k
    rw [hc] at hcm
    obtain ⟨i, _, rfl⟩ := List.mem_map.1 hcm
    have := hsb i k
    have hw := hwide k
    have hb := npUniform_bounds (lo := spaceMin k + 5 * npUniform (sMin k) (sMax k) (uS i k))
      (hi := spaceMax k - 5 * npUniform (sMin k) (sMax k) (uS i k)) (by linarith) (hM i k)
    simpa [fiveVar, diagNormal] using hb
  refine ⟨g, hg, by rw [hc]; simp, ?_, ⟨hmean, fun c hcm k => (hsup k).1 c hcm, fun k => ?_⟩⟩
  · intro c hcm
    rw [hc] at hcm
    obtain ⟨i, _, rfl⟩ := List.mem_map.1 hcm
    exact ⟨_, rfl, fun k => ⟨lt_of_lt_of_le (hs k).1 (hsb i k).1, (hsb i k).1, (hsb i k).2⟩⟩
  · obtain ⟨-, ⟨c, hcm, e⟩, c', hcm', e'⟩ := hsup k
    rw [e, e']
    constructor
    · linarith [(hmean c hcm k).1]
    · linarith [(hmean c' hcm' k).2]

/-- **C69 for variances of at least one**, where five variances are at least five standard deviations: the full
statement holds. -/
theorem C69_large_variances (spaceMin spaceMax : Fin d → ℝ) (n : ℕ) (hn : 0 < n) (sMin sMax : Fin d → ℝ)
    (hs : ∀ k, 1 ≤ sMin k ∧ sMin k ≤ sMax k) (hwide : ∀ k, 10 * sMax k ≤ spaceMax k - spaceMin k)
    (uS uM : ℕ → Fin d → ℝ) (uW : ℕ → ℝ) (hS : ∀ i k, UnitDraw (uS i k)) (hM : ∀ i k, UnitDraw (uM i k)) :
    ∃ g, randomGMM spaceMin spaceMax n sMin sMax uS uM uW = .ok g ∧ g.comps.length = n ∧
      (∀ c ∈ g.comps, ∃ v : Fin d → ℝ, c.scale = diagonal v ∧ ∀ k, 0 < v k ∧ sMin k ≤ v k ∧ v k ≤ sMax k) ∧
      Fits g spaceMin spaceMax fiveStd := by
  obtain ⟨g, hg, hl, hv, hf⟩ := C69_partial spaceMin spaceMax n hn sMin sMax
    (fun k => ⟨lt_of_lt_of_le one_pos (hs k).1, (hs k).2⟩) hwide uS uM uW hS hM
  have hle : ∀ c ∈ g.comps, ∀ k, fiveStd c k ≤ fiveVar c k := by
    intro c hc k
    obtain ⟨v, e, hb⟩ := hv c hc
    have h1 : 1 ≤ v k := (hs k).1.trans (hb k).2.1
    have h2 : Real.sqrt (v k) ≤ v k := by
      rw [Real.sqrt_le_left (by linarith)]; nlinarith
    simp only [fiveStd, fiveVar, e, diagonal_apply_eq]
    linarith
  refine ⟨g, hg, hl, hv, ⟨fun c hc k => ?_, fun c hc k => ?_, hf.inside⟩⟩
  · have := hf.mean c hc k; have := hle c hc k; constructor <;> linarith
  · have := hf.covers c hc k; have := hle c hc k; constructor <;> linarith

/-- **C69, refuted.** With the default variances (0.04 to 0.05) in a cube of side 10, an outcome of the generator puts
a mean 0.2 away from the border, which is one standard deviation, and the support ends there. -/
theorem C69_refuted : ¬ ∀ (spaceMin spaceMax : Fin 3 → ℝ) (n : ℕ), 0 < n → ∀ sMin sMax : Fin 3 → ℝ,
    (∀ k, 0 < sMin k ∧ sMin k ≤ sMax k) → (∀ k, 10 * sMax k ≤ spaceMax k - spaceMin k) →
    (∀ k, 10 * Real.sqrt (sMax k) ≤ spaceMax k - spaceMin k) →
    ∀ (uS uM : ℕ → Fin 3 → ℝ) (uW : ℕ → ℝ), (∀ i k, UnitDraw (uS i k)) → (∀ i k, UnitDraw (uM i k)) →
    (∀ i, UnitDraw (uW i)) → ∃ g, randomGMM spaceMin spaceMax n sMin sMax uS uM uW = .ok g ∧ Fits g spaceMin spaceMax fiveStd := by
  intro h
  have hU : ∀ (i : ℕ) (k : Fin 3), UnitDraw ((fun _ _ => 0 : ℕ → Fin 3 → ℝ) i k) := fun _ _ => ⟨le_refl _, one_pos⟩
  have hs : ∀ k : Fin 3, 0 < (fun _ => 1/25 : Fin 3 → ℝ) k ∧ (fun _ => 1/25 : Fin 3 → ℝ) k ≤ (fun _ => 1/20 : Fin 3 → ℝ) k := by
    intro k; norm_num
  obtain ⟨g, hg, hf⟩ := h (fun _ => 0) (fun _ => 10) 1 one_pos (fun _ => 1/25) (fun _ => 1/20) hs (by intro k; norm_num)
    (by
      intro k
      have : Real.sqrt (1/20) ≤ 1 := Real.sqrt_le_one.2 (by norm_num)
      linarith)
    (fun _ _ => 0) (fun _ _ => 0) (fun _ => 1/2) hU hU (fun _ => ⟨by norm_num, by norm_num⟩)
  obtain ⟨g', hg', hc, -⟩ := randomGMM_eq (fun _ => 0) (fun _ => 10) 1 one_pos (fun _ => 1/25) (fun _ => 1/20) hs
    (fun _ _ => 0) (fun _ _ => 0) (fun _ => 1/2) hU
  rw [hg] at hg'
  obtain rfl : g = g' := by injection hg'
  have := (hf.mean _ (by rw [hc]; simp; rfl) 0).1
  simp only [fiveStd, diagNormal, npUniform, diagonal_apply_eq] at this
  have hsq : Real.sqrt (1/25) = 1/5 := by rw [Real.sqrt_eq_iff_mul_self_eq (by norm_num) (by norm_num)]; norm_num
  norm_num at this
  norm_num at hsq
  rw [hsq] at this
  norm_num at this

/-- The hypotheses are met by the default variances in a cube of side 10. -/
example : (∀ k : Fin 3, 0 < (fun _ => 1/25 : Fin 3 → ℝ) k ∧ (fun _ => 1/25 : Fin 3 → ℝ) k ≤ (fun _ => 1/20 : Fin 3 → ℝ) k) ∧
    ∀ k : Fin 3, 10 * (fun _ => 1/20 : Fin 3 → ℝ) k ≤ (fun _ => 10 : Fin 3 → ℝ) k - (fun _ => 0 : Fin 3 → ℝ) k :=
  ⟨fun k => by norm_num, fun k => by norm_num⟩

/-! ### C92 -/

/-- **C92.** For every box, every positive resolution and every positive variance the egg box has exactly one component
per point of the lattice, each with the given variance in every coordinate, `prob` is the plain average of their normal
densities, and the support reaches five times the variance beyond the box. -/
theorem C92_egg_box (hd : 0 < d) (lo hi res : Fin d → ℝ) (sigma : ℝ) (hb : ∀ i, lo i ≤ hi i) (hr : ∀ i, 0 < res i)
    (hs : 0 < sigma) : ∃ (grid : List (Fin d → ℝ)) (g : GMM d), eggBoxGMM lo hi res sigma = .ok g ∧
      grid.Nodup ∧ (∀ x, x ∈ grid ↔ ∀ i, ∃ j : ℕ, j < max 1 ⌊(hi i - lo i) / res i⌋.toNat ∧
        x i = lo i + j * ((hi i - lo i) / (max 1 ⌊(hi i - lo i) / res i⌋.toNat - 1))) ∧
      (∀ data, g.prob data = data.map fun x =>
        .fin ((grid.map fun m => gaussDiag m (fun _ => sigma) x).sum / grid.length)) ∧
      g.support = (fun k => lo k - 5 * sigma, fun k => hi k + 5 * sigma) := by
  obtain ⟨grid, dims, shape, hg, hsh, hax, hlen, hnd, hmem, -⟩ := C68_make_grid hd lo hi res hb hr
  have hne : grid ≠ [] := by
    intro h
    rw [h] at hlen
    have : 0 < ∏ i, shape i := Finset.prod_pos fun i _ => by rw [hsh i]; omega
    simp at hlen; omega
  have hl0 : 0 < grid.length := List.length_pos_of_ne_nil hne
  obtain ⟨g, w, hk, hpv, hwl, -, hwn, hprob, -⟩ := C91_gmm_density grid (grid.map fun _ => fun _ => 1 * sigma) hne (by simp)
    (by intro v hv k; obtain ⟨_, _, rfl⟩ := List.mem_map.1 hv; simpa using hs)
    (some (List.replicate grid.length (.fin (1 / grid.length))))
    (by rintro l ⟨⟩; exact ⟨by simp, usable_default _ hl0⟩)
    (fun k => lo k - 5 * sigma, fun k => hi k + 5 * sigma)
  refine ⟨grid, g, by unfold eggBoxGMM; rw [hg]; exact hk, hnd, ?_, ?_, ?_⟩
  · intro x
    rw [hmem]
    refine forall_congr' fun i => ?_
    have hdim : dims i = linspace (lo i) (hi i) (shape i) := by
      unfold makeGrid at hg
      rw [if_neg (by rintro ⟨i, h⟩; exact absurd h (hr i).ne'), if_neg (by omega)] at hg
      simp only [Except.ok.injEq, Prod.mk.injEq] at hg
      rw [← hg.2.2, ← hg.2.1]
      simp [linspace]
    rw [hdim, hsh i]
    unfold linspace
    simp only [List.mem_map, List.mem_range]
    constructor
    · rintro ⟨j, hj, e⟩
      refine ⟨j, hj, ?_⟩
      rw [← e]
      by_cases h1 : max 1 ⌊(hi i - lo i) / res i⌋.toNat = 1
      · rw [if_pos h1]; obtain rfl : j = 0 := by omega
        simp
      · rw [if_neg h1]
    · rintro ⟨j, hj, e⟩
      refine ⟨j, hj, ?_⟩
      rw [e]
      by_cases h1 : max 1 ⌊(hi i - lo i) / res i⌋.toNat = 1
      · rw [if_pos h1]; obtain rfl : j = 0 := by omega
        simp
      · rw [if_neg h1]
  · intro data
    rw [hprob]
    apply List.map_congr_left
    intro x _
    congr 1
    have hw : w = List.replicate grid.length (1 / (grid.length : ℝ)) := by
      have := hwn (List.replicate grid.length (1 / (grid.length : ℝ))) (by simp)
        (by intro x hx; rw [(List.mem_replicate.1 hx).2]; positivity)
      rw [this]
      have h0 : (grid.length : ℝ) ≠ 0 := by exact_mod_cast hl0.ne'
      simp [h0]
    rw [hw]
    unfold gaussMix
    rw [show List.zip grid (grid.map fun _ => fun _ : Fin d => 1 * sigma) = grid.map fun m => (m, fun _ => 1 * sigma) by
      clear * -
      induction grid with
      | nil => rfl
      | cons a l ih => rw [List.map_cons, List.map_cons, List.zip_cons_cons, ih]]
    clear * -
    generalize (grid.length : ℝ) = n
    induction grid with
    | nil => simp
    | cons a l ih =>
      simp only [List.map_cons, List.length_cons, List.replicate_succ, List.zipWith_cons_cons, List.sum_cons, add_div]
      rw [ih]
      simp only [one_mul]
      ring
  · unfold GMM.mk' at hk
    rw [if_neg hne] at hk
    split at hk
    · exact absurd hk (by simp)
    · simp only at hk
      split at hk
      · exact absurd hk (by simp)
      · simp only [Except.ok.injEq] at hk
        rw [← hk]

end Verif
