import Verif.Props.PopDensity
import Mathlib.Analysis.Convex.SpecificFunctions.Basic

/-!
# M-PMC: C150, the adaptation and the fit to the batch
-/

set_option linter.unusedSectionVars false
set_option autoImplicit false

namespace Verif
namespace PMC

open Matrix

variable {d N : ℕ}

/-- How well the density a sampler reports fits a weighted batch: the weighted sum of its logarithms at the samples. This is
minus the cross entropy, the quantity the M-PMC update is derived from (section 2 of the paper cited in m_pmc.py). -/
noncomputable def fit (S : PMC d N) (rows : List (Row d N)) : ℝ :=
  (rows.map fun r => val r.w * Real.log (val (S.prob r.x))).sum

theorem sum_functional {ι : Type*} (φ : (Fin d → ℝ) →ₗ[ℝ] ℝ) (c : ι → ℝ) (x : ι → Fin d → ℝ) (l : List ι) :
    (l.map fun r => c r * φ (x r)).sum = φ fun j => (l.map fun r => c r * x r j).sum := by
  induction l with
  | nil =>
    have : (fun j : Fin d => (([] : List ι).map fun r => c r * x r j).sum) = 0 := by funext j; simp
    rw [this, map_zero]
    simp
  | cons r l ih =>
    have : (fun j : Fin d => ((r :: l).map fun r => c r * x r j).sum) = c r • x r + fun j => (l.map fun r => c r * x r j).sum := by
      funext j
      simp
    rw [this, map_add, map_smul, ← ih]
    simp

/-- Moving the centre to the weighted mean lowers the weighted sum of the quadratic forms. -/
theorem quad_mean {ι : Type*} (P : Matrix (Fin d) (Fin d) ℝ) (hP : P.PosDef) (c : ι → ℝ) (x : ι → Fin d → ℝ) (l : List ι)
    (hc : 0 < (l.map c).sum) (m m' : Fin d → ℝ) (hm : ∀ j, m' j = (l.map fun r => c r * x r j).sum / (l.map c).sum) :
    (l.map fun r => c r * ((x r - m') ⬝ᵥ (P *ᵥ (x r - m')))).sum ≤ (l.map fun r => c r * ((x r - m) ⬝ᵥ (P *ᵥ (x r - m)))).sum := by
  set v := m' - m with hv
  let φ : (Fin d → ℝ) →ₗ[ℝ] ℝ :=
    { toFun := fun u => u ⬝ᵥ (P *ᵥ v) + v ⬝ᵥ (P *ᵥ u)
      map_add' := fun a b => by simp only [add_dotProduct, mulVec_add, dotProduct_add]; ring
      map_smul' := fun k a => by simp only [smul_dotProduct, mulVec_smul, dotProduct_smul, smul_eq_mul, RingHom.id_apply]; ring }
  have hφ : ∀ u, φ u = u ⬝ᵥ (P *ᵥ v) + v ⬝ᵥ (P *ᵥ u) := fun _ => rfl
  have hsplit : ∀ r, c r * ((x r - m) ⬝ᵥ (P *ᵥ (x r - m))) =
      c r * ((x r - m') ⬝ᵥ (P *ᵥ (x r - m'))) + c r * φ (x r) + c r * (v ⬝ᵥ (P *ᵥ v) - φ m') := by
    intro r
    have e : x r - m = (x r - m') + v := by rw [hv]; abel
    have e2 : φ (x r) - φ m' = φ (x r - m') := (map_sub φ _ _).symm
    have e3 := hφ (x r - m')
    rw [e]
    simp only [add_dotProduct, mulVec_add, dotProduct_add]
    linear_combination (-c r) * e3 - c r * e2
  have hz : (l.map fun r => c r * φ (x r)).sum = (l.map c).sum * φ m' := by
    rw [sum_functional]
    have : (fun j => (l.map fun r => c r * x r j).sum) = (l.map c).sum • m' := by
      funext j
      rw [Pi.smul_apply, hm j, smul_eq_mul, mul_div_cancel₀ _ hc.ne']
    rw [this, map_smul, smul_eq_mul]
  simp only [hsplit]
  rw [List.sum_map_add, List.sum_map_add, hz, List.sum_map_mul_right]
  have hq : 0 ≤ v ⬝ᵥ (P *ᵥ v) := by
    have := hP.posSemidef.dotProduct_mulVec_nonneg v
    simpa using this
  nlinarith [mul_nonneg hc.le hq]

/-- The weighted log likelihood of a mixture does not fall if its weights become the mean posteriors and the log densities of
its components do not fall in the mean over their posteriors. -/
theorem em_step (hN : 0 < N) {ι : Type*} (l : List ι) (w : ι → ℝ) (hw : ∀ r ∈ l, 0 ≤ w r) (hw1 : (l.map w).sum = 1) (a a' : Fin N → ℝ)
    (ha : ∀ n, 0 < a n) (hs : ∑ n, a n = 1) (ha' : ∀ n, 0 < a' n) (g g' : Fin N → ι → ℝ) (hg : ∀ n r, 0 < g n r)
    (hg' : ∀ n r, 0 < g' n r) (hn : ∀ n, a' n = (l.map fun r => w r * (a n * g n r / ∑ k, a k * g k r)).sum)
    (himp : ∀ n, 0 ≤ (l.map fun r => w r * (a n * g n r / ∑ k, a k * g k r) * (Real.log (g' n r) - Real.log (g n r))).sum) :
    (l.map fun r => w r * Real.log (∑ n, a n * g n r)).sum ≤ (l.map fun r => w r * Real.log (∑ n, a' n * g' n r)).sum := by
  have hq : ∀ r, 0 < ∑ k, a k * g k r := fun r =>
    Finset.sum_pos (fun n _ => mul_pos (ha n) (hg n r)) ⟨⟨0, hN⟩, Finset.mem_univ _⟩
  have hq' : ∀ r, 0 < ∑ k, a' k * g' k r := fun r =>
    Finset.sum_pos (fun n _ => mul_pos (ha' n) (hg' n r)) ⟨⟨0, hN⟩, Finset.mem_univ _⟩
  have hjen : ∀ r, ∑ n, (a n * g n r / ∑ k, a k * g k r) * ((Real.log (a' n) - Real.log (a n)) + (Real.log (g' n r) - Real.log (g n r)))
      ≤ Real.log (∑ n, a' n * g' n r) - Real.log (∑ n, a n * g n r) := by
    intro r
    have h := strictConcaveOn_log_Ioi.concaveOn.le_map_sum (t := Finset.univ) (w := fun n => a n * g n r / ∑ k, a k * g k r)
      (p := fun n => a' n * g' n r / (a n * g n r))
      (fun n _ => (div_pos (mul_pos (ha n) (hg n r)) (hq r)).le) (by rw [← Finset.sum_div]; exact div_self (hq r).ne')
      (fun n _ => div_pos (mul_pos (ha' n) (hg' n r)) (mul_pos (ha n) (hg n r)))
    have e1 : ∑ n, (a n * g n r / ∑ k, a k * g k r) • (a' n * g' n r / (a n * g n r)) = (∑ n, a' n * g' n r) / ∑ n, a n * g n r := by
      rw [Finset.sum_div]
      refine Finset.sum_congr rfl fun n _ => ?_
      have := (mul_pos (ha n) (hg n r)).ne'
      rw [smul_eq_mul, div_mul_div_comm, mul_comm (∑ k, a k * g k r), mul_div_mul_left _ _ this]
    rw [e1, Real.log_div (hq' r).ne' (hq r).ne'] at h
    refine le_trans (le_of_eq (Finset.sum_congr rfl fun n _ => ?_)) h
    rw [smul_eq_mul, Real.log_div (mul_pos (ha' n) (hg' n r)).ne' (mul_pos (ha n) (hg n r)).ne',
      Real.log_mul (ha' n).ne' (hg' n r).ne', Real.log_mul (ha n).ne' (hg n r).ne']
    ring
  have hgibbs : 0 ≤ ∑ n, a' n * (Real.log (a' n) - Real.log (a n)) := by
    have h1 : ∀ n, a' n - a n ≤ a' n * (Real.log (a' n) - Real.log (a n)) := by
      intro n
      have := Real.log_le_sub_one_of_pos (div_pos (ha n) (ha' n))
      rw [Real.log_div (ha n).ne' (ha' n).ne'] at this
      have h2 := mul_le_mul_of_nonneg_left this (ha' n).le
      have h3 : a' n * (a n / a' n - 1) = a n - a' n := by
        rw [mul_sub, mul_div_cancel₀ _ (ha' n).ne', mul_one]
      linarith
    have hs' : ∑ n, a' n = 1 := by
      have : ∑ n, a' n = (l.map fun r => w r * ∑ n, (a n * g n r / ∑ k, a k * g k r)).sum := by
        simp only [hn, Finset.mul_sum]
        induction l with
        | nil => simp
        | cons r l _ => 
          clear hn himp hw hw1
          induction (r :: l) with
          | nil => simp
          | cons r l ih => simp [Finset.sum_add_distrib, ih]
      rw [this, ← hw1]
      congr 1
      refine List.map_congr_left fun r _ => ?_
      rw [← Finset.sum_div, div_self (hq r).ne', mul_one]
    have := Finset.sum_le_sum fun n (_ : n ∈ Finset.univ) => h1 n
    rw [Finset.sum_sub_distrib, hs, hs', sub_self] at this
    exact this
  have hswap : (l.map fun r => w r * ∑ n, (a n * g n r / ∑ k, a k * g k r) * ((Real.log (a' n) - Real.log (a n)) + (Real.log (g' n r) - Real.log (g n r)))).sum
      = ∑ n, (a' n * (Real.log (a' n) - Real.log (a n)) +
          (l.map fun r => w r * (a n * g n r / ∑ k, a k * g k r) * (Real.log (g' n r) - Real.log (g n r))).sum) := by
    have : ∀ n, a' n * (Real.log (a' n) - Real.log (a n)) =
        (l.map fun r => w r * (a n * g n r / ∑ k, a k * g k r) * (Real.log (a' n) - Real.log (a n))).sum := by
      intro n
      rw [List.sum_map_mul_right, ← hn]
    simp only [this]
    clear hn himp hw hw1 this
    induction l with
    | nil => simp
    | cons r l ih =>
      simp only [List.map_cons, List.sum_cons] at ih ⊢
      rw [ih, Finset.mul_sum, ← Finset.sum_add_distrib]
      refine Finset.sum_congr rfl fun n _ => ?_
      ring
  have hle := List.sum_le_sum (l := l) (f := fun r => w r * ∑ n, (a n * g n r / ∑ k, a k * g k r) * ((Real.log (a' n) - Real.log (a n)) + (Real.log (g' n r) - Real.log (g n r))))
    (g := fun r => w r * (Real.log (∑ n, a' n * g' n r) - Real.log (∑ n, a n * g n r)))
    fun r hr => mul_le_mul_of_nonneg_left (hjen r) (hw r hr)
  rw [hswap, Finset.sum_add_distrib] at hle
  have hsub : (l.map fun r => w r * (Real.log (∑ n, a' n * g' n r) - Real.log (∑ n, a n * g n r))).sum =
      (l.map fun r => w r * Real.log (∑ n, a' n * g' n r)).sum - (l.map fun r => w r * Real.log (∑ n, a n * g n r)).sum := by
    rw [eq_sub_iff_add_eq, ← List.sum_map_add]
    congr 1
    refine List.map_congr_left fun r _ => ?_
    ring
  rw [hsub] at hle
  have := Finset.sum_nonneg fun n (_ : n ∈ Finset.univ) => himp n
  linarith

/-- The reported density of a state of numbers. -/
theorem prob_fin {S : PMC d N} {m : Fin N → Fin d → ℝ} {a : Fin N → ℝ} (hm : S.means = fun n => up (m n)) (hp : ∀ n, (S.covs n).PosDef)
    (hmw : S.modelWeights = (List.ofFn a).map XF.fin) (x : Fin d → ℝ) :
    S.prob (up x) = .fin (∑ n, a n * gauss (m n) (S.covs n) x) := by
  have hn := fun n => normalLog_gauss (m n) (S.covs n) (hp n)
  have hl : ∀ n, normalLog (S.means n) (S.covs n) (up x) = .fin (Real.log (gauss (m n) (S.covs n) x)) := by
    intro n
    rw [hm]
    exact ((hn n).1 x).2
  unfold prob
  simp only [hl]
  rw [hmw]
  have : List.zipWith (fun l w => XF.exp l * w)
      (List.ofFn fun n => XF.fin (Real.log (gauss (m n) (S.covs n) x))) ((List.ofFn a).map XF.fin) =
      (List.ofFn fun n => a n * gauss (m n) (S.covs n) x).map XF.fin := by
    rw [List.map_ofFn, zipWith_ofFn, List.map_ofFn]
    congr 1
    funext n
    simp [XF.exp, Real.exp_log ((hn n).1 x).1, mul_comm]
  rw [this, XF.sum_map_fin, List.sum_ofFn]

theorem fit_eq {S : PMC d N} {m : Fin N → Fin d → ℝ} {a : Fin N → ℝ} (hm : S.means = fun n => up (m n)) (hp : ∀ n, (S.covs n).PosDef)
    (hmw : S.modelWeights = (List.ofFn a).map XF.fin) (rs : List (RRow d N)) :
    fit S (rs.map RRow.up) = (rs.map fun r => r.w * Real.log (∑ n, a n * gauss (m n) (S.covs n) r.x)).sum := by
  unfold fit
  rw [List.map_map]
  congr 1
  refine List.map_congr_left fun r _ => ?_
  simp only [Function.comp_apply, RRow.up]
  rw [prob_fin hm hp hmw]
  rfl

/-- What `adapt` stores after a batch in which all components keep a positive weight. -/
theorem adapt_stores (hN : 0 < N) {rs : List (RRow d N)} (h : IsBatch rs) (hp : ∀ n, 0 < rAlpha rs n) {S S' : PMC d N}
    (hS : adapt (rs.map RRow.up) S = (S', none)) :
    S'.means = (fun n => up (rMean rs n)) ∧ S'.modelWeights = (List.ofFn (rAlpha rs)).map XF.fin ∧
      S'.covs = (fun n => rSafe (scatter rs (rMean rs n))) := by
  have hsum : ∑ n, rAlpha rs n = 1 := rAlpha_sum h
  have hsumX : (List.ofFn (updOf rs).alpha).sum = XF.fin 1 := by
    have : List.ofFn (updOf rs).alpha = (List.ofFn fun n => rAlpha rs n).map XF.fin := by
      rw [List.map_ofFn]; rfl
    rw [this, XF.sum_map_fin, List.sum_ofFn, hsum]
  have hdiv : ∀ n, (updOf rs).alpha n / (List.ofFn (updOf rs).alpha).sum = XF.fin (rAlpha rs n) := by
    intro n
    rw [hsumX]
    show XF.fin _ / XF.fin 1 = _
    rw [XF.fin_div_ne _ _ one_ne_zero, div_one]
  rcases adapt_eq _ _ (computes_updOf h) S with ⟨-, w, hw, he⟩ | ⟨-, he, -⟩
  · rw [hS] at he
    simp only [Prod.mk.injEq, and_true] at he
    subst he
    simp only [hdiv] at hw
    rw [setWeights_prob (rAlpha rs) hp hN hsum] at hw
    refine ⟨?_, (Except.ok.inj hw).symm, ?_⟩
    · funext n
      show (updOf rs).mean n = _
      simp only [updOf, if_neg (hp n).ne']
    · funext n
      show (updOf rs).cov n = _
      simp only [updOf, if_neg (hp n).ne']
  · rw [hS] at he
    cases he

/-- **C150_partial** In every reachable state without undefined weights, for every batch on which the target is not zero
everywhere: the component weights and means that `adapt` computes do not lower the fit of the reported density to the weighted
batch, as long as the covariances are kept. Missing with respect to C150: the covariances that `adapt` computes. -/
theorem C150_partial (hd : 0 < d) (hN : 0 < N) {k : ℕ} (hk : 0 < k) {sigma : ℝ} (hs : 0 < sigma) {lo hi : Fin d → ℝ}
    {S : PMC d N} (h : Reach k sigma lo hi S) (hw : XF.nan ∉ S.weights) (target : (Fin d → XF ℝ) → XF ℝ)
    (ht : ∀ x : Fin d → ℝ, IsLogDensity (target (up x))) (ys : List (Fin d → ℝ)) (hy : ∃ y ∈ ys, 0 < densOf (target (up y)))
    (S' : PMC d N) (had : adapt (rowsOf target S (ys.map up)) S = (S', none)) :
    fit S (rowsOf target S (ys.map up)) ≤ fit { S' with covs := S.covs } (rowsOf target S (ys.map up)) := by
  rcases reach_posDef hd hN hk hs h with ⟨⟨⟨m, a, hm, -, ha, hsum, hal, hmw⟩, -⟩, hp⟩ | h
  swap
  · exact absurd h.weights hw
  have hn := fun n => normalLog_gauss (m n) (S.covs n) (hp n)
  have hl : ∀ n x, normalLog (S.means n) (S.covs n) (up x) = .fin (Real.log (gauss (m n) (S.covs n) x)) := by
    intro n x
    rw [hm]
    exact ((hn n).1 x).2
  have hmix : ∀ x, mixAt a (fun n => Real.log (gauss (m n) (S.covs n) x)) = ∑ n, a n * gauss (m n) (S.covs n) x := by
    intro x
    unfold mixAt
    exact Finset.sum_congr rfl fun n _ => by rw [Real.exp_log ((hn n).1 x).1]
  have hd0 : ∀ y, 0 ≤ densOf (target (up y)) := fun y => by
    rcases ht y with h | ⟨v, h⟩
    · rw [h]; exact le_rfl
    · rw [h]; exact (Real.exp_pos _).le
  obtain ⟨hps, hB, hpos⟩ := rowsReal_batch hN a (fun n x => Real.log (gauss (m n) (S.covs n) x)) ha (fun y => densOf (target (up y))) hd0 ys hy
  obtain ⟨-, hrows⟩ := rows_good hN S a _ ha hmw hal hl target ht ys
  have hrows := hrows hps.ne'
  rw [hrows] at had ⊢
  set rs := rowsReal a (fun n x => Real.log (gauss (m n) (S.covs n) x)) (fun y => densOf (target (up y))) ys with hrs
  obtain ⟨h1, h2, -⟩ := adapt_stores hN hB hpos had
  rw [fit_eq hm hp hmw, fit_eq (S := { S' with covs := S.covs }) (m := rMean rs) (a := rAlpha rs) h1 hp h2]
  have hrho : ∀ r ∈ rs, ∀ n, r.rho n = a n * gauss (m n) (S.covs n) r.x / ∑ k, a k * gauss (m k) (S.covs k) r.x := by
    intro r hr n
    rw [hrs] at hr
    obtain ⟨y, -, rfl⟩ := List.mem_map.1 hr
    dsimp only
    rw [hmix, Real.exp_log ((hn n).1 y).1]
  have hcoef : ∀ n, rAlpha rs n = (rs.map fun r => r.w * (a n * gauss (m n) (S.covs n) r.x / ∑ k, a k * gauss (m k) (S.covs k) r.x)).sum := by
    intro n
    unfold rAlpha
    congr 1
    exact List.map_congr_left fun r hr => by rw [hrho r hr n]
  refine em_step hN rs RRow.w (fun r hr => hB.weights.1 _ (List.mem_map.2 ⟨r, hr, rfl⟩)) hB.weights.2 a (rAlpha rs) ha hsum hpos
    (fun n r => gauss (m n) (S.covs n) r.x) (fun n r => gauss (rMean rs n) (S.covs n) r.x) (fun n r => ((hn n).1 r.x).1)
    (fun n r => ((normalLog_gauss (rMean rs n) (S.covs n) (hp n)).1 r.x).1) hcoef ?_
  intro n
  have hq := quad_mean (S.covs n)⁻¹ (hp n).inv (fun r : RRow d N => r.w * r.rho n) RRow.x rs (hpos n) (m n) (rMean rs n) fun j => rfl
  have hlog : ∀ (c : Fin d → ℝ) x, Real.log (gauss c (S.covs n) x) =
      -(1/2) * ((x - c) ⬝ᵥ ((S.covs n)⁻¹ *ᵥ (x - c))) - Real.log (Real.sqrt ((2 * Real.pi) ^ d * (S.covs n).det)) := by
    intro c x
    unfold gauss
    rw [Real.log_div (Real.exp_pos _).ne', Real.log_exp]
    have : 0 < (2 * Real.pi) ^ d * (S.covs n).det := mul_pos (by positivity) (hp n).det_pos
    exact (Real.sqrt_pos.2 this).ne'
  have e : (rs.map fun r => r.w * (a n * gauss (m n) (S.covs n) r.x / ∑ k, a k * gauss (m k) (S.covs k) r.x) *
        (Real.log (gauss (rMean rs n) (S.covs n) r.x) - Real.log (gauss (m n) (S.covs n) r.x))).sum =
      (1/2) * ((rs.map fun r => r.w * r.rho n * ((r.x - m n) ⬝ᵥ ((S.covs n)⁻¹ *ᵥ (r.x - m n)))).sum -
        (rs.map fun r => r.w * r.rho n * ((r.x - rMean rs n) ⬝ᵥ ((S.covs n)⁻¹ *ᵥ (r.x - rMean rs n)))).sum) := by
    have h3 : ∀ l : List (RRow d N), (∀ r ∈ l, r ∈ rs) → (l.map fun r => r.w * (a n * gauss (m n) (S.covs n) r.x / ∑ k, a k * gauss (m k) (S.covs k) r.x) *
        (Real.log (gauss (rMean rs n) (S.covs n) r.x) - Real.log (gauss (m n) (S.covs n) r.x))).sum =
      (1/2) * ((l.map fun r => r.w * r.rho n * ((r.x - m n) ⬝ᵥ ((S.covs n)⁻¹ *ᵥ (r.x - m n)))).sum -
        (l.map fun r => r.w * r.rho n * ((r.x - rMean rs n) ⬝ᵥ ((S.covs n)⁻¹ *ᵥ (r.x - rMean rs n)))).sum) := by
      intro l
      induction l with
      | nil => intro _; simp
      | cons r l ih =>
        intro hl
        rw [List.map_cons, List.sum_cons, ih fun r hr => hl r (List.mem_cons_of_mem _ hr), ← hrho r (hl r (by simp)) n, hlog, hlog]
        simp only [List.map_cons, List.sum_cons]
        ring
    exact h3 rs fun _ h => h
  rw [e]
  linarith

theorem reset_fields (hN : 0 < N) {sigma : ℝ} {lo hi : Fin d → ℝ} {u : Fin N → Fin d → ℝ} {S : PMC d N}
    (h : reset N sigma lo hi u = .ok S) : S.means = (fun n => up fun i => lo i + (hi i - lo i) * u n i) ∧
      S.covs = (fun _ => Matrix.diagonal fun _ => sigma) ∧ S.alpha = (fun _ => .fin (1 / (N : ℝ))) ∧
      S.modelWeights = (List.ofFn fun _ : Fin N => 1 / (N : ℝ)).map XF.fin ∧ S.weights = [] := by
  unfold reset at h
  rw [if_neg (by omega)] at h
  split at h
  · rw [setWeights_uniform N hN] at h
    cases h
    exact ⟨rfl, rfl, rfl, by simp, rfl⟩
  · cases h

theorem gauss_one (c v x : ℝ) (hv : 0 < v) : Real.log (gauss (d := 1) (fun _ => c) (Matrix.diagonal fun _ => v) fun _ => x) =
    -(x - c) ^ 2 / (2 * v) - Real.log (2 * Real.pi * v) / 2 := by
  unfold gauss
  have h1 : (Matrix.diagonal fun _ : Fin 1 => v).det = v := by simp
  have h2 : (Matrix.diagonal fun _ : Fin 1 => v)⁻¹ = Matrix.diagonal fun _ => v⁻¹ := by
    apply Matrix.inv_eq_right_inv
    rw [Matrix.diagonal_mul_diagonal]
    simp [hv.ne']
  have h3 : 0 < 2 * Real.pi * v := by positivity
  rw [h1, h2, pow_one, Real.log_div (Real.exp_pos _).ne' (Real.sqrt_pos.2 h3).ne', Real.log_exp, Real.log_sqrt h3.le]
  simp [dotProduct, Matrix.mulVec_diagonal]
  field_simp

/-- One proposal at 1/2 with variance 1/4, a constant target, and the batch 0, 1: the adaptation goes through and the fit is worse. -/
theorem fit_worse : ∃ (S S' : PMC 1 1), Reach 2 (1/4) (fun _ => 0) (fun _ => 1) S ∧ XF.nan ∉ S.weights ∧
    adapt (rowsOf (fun _ => XF.fin 0) S ([fun _ => 0, fun _ => 1].map up)) S = (S', none) ∧
    ¬ fit S (rowsOf (fun _ => XF.fin 0) S ([fun _ => 0, fun _ => 1].map up)) ≤
      fit S' (rowsOf (fun _ => XF.fin 0) S ([fun _ => 0, fun _ => 1].map up)) := by
  obtain ⟨S, hS⟩ := reset_ok (N := 1) one_pos (1/4) (by norm_num) (fun _ : Fin 1 => 0) (fun _ => 1) fun _ _ => 1/2
  obtain ⟨h1, h2, h3, h4, h5⟩ := reset_fields one_pos hS
  have hp : ∀ n, (S.covs n).PosDef := fun n => by rw [h2]; exact Matrix.PosDef.diagonal fun _ => by norm_num
  have hm : S.means = fun _ => up fun _ => (1/2 : ℝ) := by
    rw [h1]
    funext n
    congr 1
    funext i
    norm_num
  have ha : S.alpha = fun _ => XF.fin 1 := by rw [h3]; norm_num
  have hmw : S.modelWeights = (List.ofFn fun _ : Fin 1 => (1 : ℝ)).map XF.fin := by rw [h4]; norm_num
  set l : Fin 1 → (Fin 1 → ℝ) → ℝ := fun n x => Real.log (gauss (fun _ => 1/2) (S.covs n) x) with hl
  have hl' : ∀ n x, normalLog (S.means n) (S.covs n) (up x) = .fin (l n x) := by
    intro n x
    rw [hm]
    exact ((normalLog_gauss _ _ (hp n)).1 x).2
  have ht : ∀ x : Fin 1 → ℝ, IsLogDensity ((fun _ => XF.fin 0 : (Fin 1 → XF ℝ) → XF ℝ) (up x)) := fun x => Or.inr ⟨0, rfl⟩
  set ys : List (Fin 1 → ℝ) := [fun _ => 0, fun _ => 1] with hys
  obtain ⟨hps, -, -⟩ := rowsReal_batch one_pos (fun _ => 1) l (fun _ => one_pos) (fun y => densOf ((fun _ => XF.fin 0 : (Fin 1 → XF ℝ) → XF ℝ) (up y)))
    (fun y => (Real.exp_pos _).le) ys ⟨fun _ => 0, by simp [hys], Real.exp_pos _⟩
  obtain ⟨-, hrows⟩ := rows_good one_pos S (fun _ => 1) l (fun _ => one_pos) hmw ha hl' (fun _ => XF.fin 0) ht ys
  have hrows := hrows hps.ne'
  have hl01 : l 0 (fun _ => 0) = l 0 fun _ => 1 := by
    simp only [hl, h2]
    rw [gauss_one _ _ _ (by norm_num), gauss_one _ _ _ (by norm_num)]
    norm_num
  have hrs : rowsReal (fun _ => 1) l (fun y => densOf ((fun _ => XF.fin 0 : (Fin 1 → XF ℝ) → XF ℝ) (up y))) ys =
      [⟨fun _ => 0, 1/2, fun _ => 1⟩, ⟨fun _ => 1, 1/2, fun _ => 1⟩] := by
    have e : ∀ z, mixAt (fun _ : Fin 1 => (1:ℝ)) (fun n => l n z) = Real.exp (l 0 z) := fun z => by simp [mixAt]
    have hd : densOf (XF.fin 0) = 1 := by simp [densOf]
    unfold rowsReal
    simp only [hys, List.map_cons, List.map_nil, List.sum_cons, List.sum_nil, add_zero, e, hd, hl01]
    have hpos := Real.exp_pos (l 0 fun _ => 1)
    have hw : 1 / Real.exp (l 0 fun _ => 1) / (1 / Real.exp (l 0 fun _ => 1) + 1 / Real.exp (l 0 fun _ => 1)) = 1 / 2 := by
      field_simp
      norm_num
    have hr : ∀ (n : Fin 1) (z : Fin 1 → ℝ), 1 * Real.exp (l n z) / Real.exp (l 0 z) = 1 := fun n z => by
      rw [Subsingleton.elim n 0, one_mul, div_self (Real.exp_pos _).ne']
    have hr2 : ∀ (n : Fin 1), 1 * Real.exp (l n fun _ => 0) / Real.exp (l 0 fun _ => 1) = 1 := fun n => by
      rw [← hl01]; exact hr n _
    simp only [hw, hr, hr2]
  rw [hrs] at hrows
  set rs : List (RRow 1 1) := [⟨fun _ => 0, 1/2, fun _ => 1⟩, ⟨fun _ => 1, 1/2, fun _ => 1⟩] with hrsd
  have hB : IsBatch rs := by
    constructor
    · constructor
      · intro w hw
        simp [hrsd] at hw
        rw [hw]; norm_num
      · norm_num [hrsd]
    · intro r hr
      simp only [hrsd, List.mem_cons, List.not_mem_nil, or_false] at hr
      rcases hr with rfl | rfl <;> simp
  have hal : ∀ n, rAlpha rs n = 1 := fun n => by norm_num [rAlpha, hrsd]
  have hme : ∀ n, rMean rs n = fun _ => 1/2 := fun n => by
    funext i
    unfold rMean
    rw [hal]
    norm_num [hrsd]
  have hsc : rSafe (scatter rs fun _ => 1/2) = Matrix.diagonal fun _ => (1/2 : ℝ) := by
    have e : scatter rs (fun _ => 1/2) = Matrix.diagonal fun _ => (1/2 : ℝ) := by
      ext i j
      rw [Subsingleton.elim i 0, Subsingleton.elim j 0]
      norm_num [scatter, hrsd]
    unfold rSafe
    rw [e, if_neg]
    rintro ⟨i, j, h⟩
    rw [Subsingleton.elim i 0, Subsingleton.elim j 0] at h
    norm_num at h
  obtain ⟨S', hS'⟩ : ∃ S', adapt (rs.map RRow.up) S = (S', none) := by
    rcases adapt_eq _ _ (computes_updOf hB) S with ⟨-, w, -, h⟩ | ⟨⟨n, h⟩, -⟩
    · exact ⟨_, h⟩
    · exfalso
      apply h
      have hn : ¬ rAlpha rs n = 0 := by rw [hal]; norm_num
      simp only [updOf, hn, if_false]
      rw [hme, hsc]
      simp
  obtain ⟨k1, k2, k3⟩ := adapt_stores one_pos hB (fun n => by rw [hal]; norm_num) hS'
  have hp' : ∀ n, (S'.covs n).PosDef := fun n => by
    rw [k3]
    dsimp only
    rw [hme, hsc]
    exact Matrix.PosDef.diagonal fun _ => by norm_num
  refine ⟨S, S', Reach.reset _ S hS, by rw [h5]; simp, by rw [hrows]; exact hS', fun hfin => ?_⟩
  rw [hrows, fit_eq hm hp hmw, fit_eq k1 hp' k2, h2, k3] at hfin
  simp only [hme, hsc, hal] at hfin
  simp only [hrsd, List.map_cons, List.map_nil, List.sum_cons, List.sum_nil, Finset.univ_unique, Finset.sum_singleton,
    one_mul, add_zero] at hfin
  rw [gauss_one _ _ _ (by norm_num), gauss_one _ _ _ (by norm_num), gauss_one _ _ _ (by norm_num), gauss_one _ _ _ (by norm_num)] at hfin
  have hlog : Real.log (2 * Real.pi * (1/2)) = Real.log (2 * Real.pi * (1/4)) + Real.log 2 := by
    rw [← Real.log_mul (by positivity) (by norm_num)]
    congr 1
    ring
  rw [hlog] at hfin
  have h12 := Real.log_lt_sub_one_of_pos (x := 1/2) (by norm_num) (by norm_num)
  rw [one_div, Real.log_inv] at h12
  norm_num at hfin
  linarith

/-- **C150** (negation) A new sampler with one proposal at 1/2 of variance 1/4, a constant target and the batch 0, 1: mean and
variance already are those of the batch. The adaptation doubles the variance, and the fit to the batch gets worse. -/
theorem C150_refuted : ¬ ∀ (sigma : ℝ) (lo hi : Fin 1 → ℝ) (S : PMC 1 1), 0 < sigma → Reach 2 sigma lo hi S → XF.nan ∉ S.weights →
    ∀ (target : (Fin 1 → XF ℝ) → XF ℝ), (∀ x : Fin 1 → ℝ, IsLogDensity (target (up x))) → ∀ ys : List (Fin 1 → ℝ),
    (∃ y ∈ ys, 0 < densOf (target (up y))) → ∀ S', adapt (rowsOf target S (ys.map up)) S = (S', none) →
      fit S (rowsOf target S (ys.map up)) ≤ fit S' (rowsOf target S (ys.map up)) := by
  intro H
  obtain ⟨S, S', hR, hw, had, hn⟩ := fit_worse
  exact hn (H (1/4) _ _ S (by norm_num) hR hw (fun _ => XF.fin 0) (fun _ => Or.inr ⟨0, rfl⟩) [fun _ => 0, fun _ => 1]
    ⟨fun _ => 0, by simp, Real.exp_pos _⟩ S' had)

/-- A reachable state and a batch that meet the conditions of `C150_partial`. -/
example : ∃ (S S' : PMC 1 1) (target : (Fin 1 → XF ℝ) → XF ℝ) (ys : List (Fin 1 → ℝ)), Reach 2 (1/4) (fun _ => 0) (fun _ => 1) S ∧
    XF.nan ∉ S.weights ∧ (∀ x : Fin 1 → ℝ, IsLogDensity (target (up x))) ∧ (∃ y ∈ ys, 0 < densOf (target (up y))) ∧
    adapt (rowsOf target S (ys.map up)) S = (S', none) := by
  obtain ⟨S, S', hR, hw, had, -⟩ := fit_worse
  exact ⟨S, S', fun _ => XF.fin 0, [fun _ => 0, fun _ => 1], hR, hw, fun _ => Or.inr ⟨0, rfl⟩, ⟨fun _ => 0, by simp, Real.exp_pos _⟩, had⟩

end PMC
end Verif
