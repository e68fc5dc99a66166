import Verif.Props.AIS
import Verif.Props.MPMCRun
import Verif.Props.KDE
import Mathlib.Analysis.Matrix.Order

/-!
# Property C98: the density reported by the population samplers
-/

set_option linter.unusedSectionVars false
set_option autoImplicit false

namespace Verif

open Matrix MeasureTheory

variable {d : ℕ}

/-- Density of the proposal with the given centre: a normal distribution with covariance `diag(sigma)`
(dm_ais.py:38-39, layered_ais.py:45-46). -/
noncomputable def AIS.proposal (sigma : ℝ) (c x : Fin d → ℝ) : ℝ :=
  match Normal.mk' c (diagonal fun _ => sigma) with
  | .ok s => s.prob1 x
  | .error _ => 0

theorem AIS.proposal_eq {sigma : ℝ} (hs : 0 < sigma) (c x : Fin d → ℝ) :
    AIS.proposal sigma c x = gaussDiag c (fun _ => sigma) x := by
  unfold AIS.proposal
  rw [diag_mk fun _ => hs]
  exact diag_prob (fun _ => hs) x

theorem AIS.proposal_pos {sigma : ℝ} (hs : 0 < sigma) (c x : Fin d → ℝ) : 0 < AIS.proposal sigma c x := by
  unfold AIS.proposal
  rw [diag_mk fun _ => hs]
  exact Real.exp_pos _

theorem estimate_density {sigma : ℝ} (hs : 0 < sigma) {N : ℕ} (hN : 0 < N) (S : AIS ℝ d) (hc : S.centers.length = N)
    (hm : S.modelWeights = List.replicate N (XF.fin (1 / (N : ℝ)))) :
    (∀ x, S.prob (fun c x => .fin (AIS.proposal sigma c x)) x = .fin (KDE.estimate sigma S.centers x)) ∧
      (∀ x, 0 < KDE.estimate sigma S.centers x) ∧ Integrable (KDE.estimate sigma S.centers) ∧
      ∫ x, KDE.estimate sigma S.centers x = 1 := by
  obtain ⟨m, -, r⟩ := KDE.mixture_spec hs (nodes := S.centers) (by
    intro h
    rw [h] at hc
    simp at hc
    omega)
  refine ⟨?_, r.pos, r.int, r.one⟩
  intro x
  rw [AIS.prob_fin _ S N hc hm]
  unfold mixVal KDE.estimate
  rw [hc]
  simp only [AIS.proposal_eq hs]

/-- **C98**, DM-AIS: at every time the density reported by `prob` is the average of the normal densities around the current
centres of the `N` proposals, positive and of total mass one. -/
theorem C98_dm {sigma : ℝ} (hs : 0 < sigma) {N k : ℕ} (hN : 0 < N) {lo hi : Fin d → ℝ} {S : AIS ℝ d}
    (h : DM.Reach N k lo hi (AIS.proposal sigma) S) :
    S.centers.length = N ∧
      (∀ x, S.prob (fun c x => .fin (AIS.proposal sigma c x)) x = .fin (KDE.estimate sigma S.centers x)) ∧
      (∀ x, 0 < KDE.estimate sigma S.centers x) ∧ Integrable (KDE.estimate sigma S.centers) ∧
      ∫ x, KDE.estimate sigma S.centers x = 1 := by
  have g := DM.reach_good hN (fun c x => AIS.proposal_pos hs c x) h
  exact ⟨g.centers, estimate_density hs hN S g.centers g.model⟩

/-- **C98**, layered AIS. -/
theorem C98_lais {sigma : ℝ} (hs : 0 < sigma) {N k L : ℕ} (hN : 0 < N) {lo hi : Fin d → ℝ} {S : AIS ℝ d}
    (h : LAIS.Reach N k L lo hi (fun c x => .fin (AIS.proposal sigma c x)) S) :
    S.centers.length = N ∧
      (∀ x, S.prob (fun c x => .fin (AIS.proposal sigma c x)) x = .fin (KDE.estimate sigma S.centers x)) ∧
      (∀ x, 0 < KDE.estimate sigma S.centers x) ∧ Integrable (KDE.estimate sigma S.centers) ∧
      ∫ x, KDE.estimate sigma S.centers x = 1 := by
  have g := LAIS.reach_good h
  exact ⟨g.centers, estimate_density hs hN S g.centers g.model⟩

/-- States that meet the hypotheses: two proposals in one dimension. -/
example : ∃ S : AIS ℝ 1, DM.Reach 2 3 ![0] ![1] (AIS.proposal 1) S ∧
    LAIS.Reach 2 3 4 ![0] ![1] (fun c x => .fin (AIS.proposal 1 c x)) S := by
  have h := AIS.reset_ok (K := ℝ) 2 (by norm_num) ![0] ![1] fun _ _ => 1/2
  exact ⟨_, DM.Reach.reset _ _ h, LAIS.Reach.reset _ (by norm_num) _ h⟩

/-! ### M-PMC -/

namespace PMC
variable {N : ℕ}

/-- Specification: density of the normal distribution with mean `m` and covariance `cov`. -/
noncomputable def gauss (m : Fin d → ℝ) (cov : Matrix (Fin d) (Fin d) ℝ) (x : Fin d → ℝ) : ℝ :=
  Real.exp (-(1/2) * ((x - m) ⬝ᵥ (cov⁻¹ *ᵥ (x - m)))) / Real.sqrt ((2 * Real.pi) ^ d * cov.det)

theorem scatter_posSemidef (rs : List (RRow d N)) (mu : Fin d → ℝ) : (scatter rs mu).PosSemidef := by
  unfold scatter
  induction rs with
  | nil =>
    have : (Matrix.of fun a b => (([] : List (RRow d N)).map fun r => (r.x a - mu a) * (r.x b - mu b)).sum
        : Matrix (Fin d) (Fin d) ℝ) = 0 := by
      ext a b; simp
    rw [this]
    exact Matrix.PosSemidef.zero
  | cons r l ih =>
    have e : (Matrix.of fun a b => ((r :: l).map fun r => (r.x a - mu a) * (r.x b - mu b)).sum
        : Matrix (Fin d) (Fin d) ℝ) = Matrix.vecMulVec (fun a => r.x a - mu a) (star fun a => r.x a - mu a)
          + Matrix.of fun a b => (l.map fun r => (r.x a - mu a) * (r.x b - mu b)).sum := by
      ext a b
      simp [Matrix.vecMulVec_apply]
    rw [e]
    exact (Matrix.posSemidef_vecMulVec_self_star _).add ih

theorem rSafe_posDef (rs : List (RRow d N)) (mu : Fin d → ℝ) (h : 0 < (rSafe (scatter rs mu)).det) :
    (rSafe (scatter rs mu)).PosDef := by
  unfold rSafe at h ⊢
  split
  · exact Matrix.PosDef.diagonal fun _ => by norm_num
  · rename_i hc
    rw [if_neg hc] at h
    exact (scatter_posSemidef rs mu).posDef_iff_det_ne_zero.2 h.ne'

/-- In every reachable state with proper proposals all covariances are positive definite. -/
theorem reach_posDef (hd : 0 < d) (hN : 0 < N) {k : ℕ} (hk : 0 < k) {sigma : ℝ} (hs : 0 < sigma) {lo hi : Fin d → ℝ}
    {S : PMC d N} (h : Reach k sigma lo hi S) : (Good k S ∧ ∀ n, (S.covs n).PosDef) ∨ Poisoned S := by
  induction h with
  | reset u S h =>
    refine Or.inl ⟨(reset_good hN k sigma lo hi u S h).1, ?_⟩
    unfold reset at h
    rw [if_neg (by omega)] at h
    split at h
    · rw [setWeights_uniform N hN] at h
      cases h
      exact fun _ => Matrix.PosDef.diagonal fun _ => hs
    · cases h
  | call S hS t ht n expired script S' h ih =>
    refine whileScript_inv_ok (fun S => (Good k S ∧ ∀ n, (S.covs n).PosDef) ∨ Poisoned S) ?_ script expired S S' ih h
    rintro it s (hs | hs) _ hb
    · obtain ⟨m, idx, ys, -, -, h | h⟩ := body_good hd hN hk s hs.1 t ht it
      · obtain ⟨-, rs, -, -, -, h | h⟩ := h
        · obtain ⟨h1, -, h2, -, -, h3⟩ := h
          refine Or.inl ⟨h2, fun n => ?_⟩
          rw [h3]
          exact rSafe_posDef rs _ (h1 n)
        · rw [hb] at h
          cases h.2
      · exact Or.inr h.2.2.1
    · exact Or.inr (body_poisoned hd hN hk s hs t it).2.1

theorem normalLog_gauss (m : Fin d → ℝ) (cov : Matrix (Fin d) (Fin d) ℝ) (h : cov.PosDef) :
    (∀ x, 0 < gauss m cov x ∧ normalLog (up m) cov (up x) = .fin (Real.log (gauss m cov x))) ∧
      Integrable (gauss m cov) ∧ ∫ x, gauss m cov x = 1 := by
  obtain ⟨s, hs, h1, h2, -, -, h3, h4⟩ := C09_normal_density m cov h
  have e : s.prob1 = gauss m cov := funext h1
  rw [e] at h3 h4 h2
  refine ⟨fun x => ⟨(h2 x).1, ?_⟩, h3, h4⟩
  unfold normalLog
  rw [if_pos ⟨fun _ => rfl, fun _ => rfl⟩]
  have : (fun i => val (up m i)) = m := rfl
  rw [this, hs]
  simp only
  rw [(h2 x).2]
  rfl

/-- **C98**, M-PMC: as long as no weight is undefined, the density reported by `prob` and `log_prob` is a mixture of `N`
normal densities with positive definite covariances and positive weights that add up to one; its total mass is one. -/
theorem C98_partial (hd : 0 < d) (hN : 0 < N) {k : ℕ} (hk : 0 < k) {sigma : ℝ} (hs : 0 < sigma) {lo hi : Fin d → ℝ}
    {S : PMC d N} (h : Reach k sigma lo hi S) (hw : XF.nan ∉ S.weights) :
    ∃ (a : Fin N → ℝ) (m : Fin N → Fin d → ℝ) (g : (Fin d → ℝ) → ℝ), (∀ n, 0 < a n) ∧ ∑ n, a n = 1 ∧
      S.means = (fun n => up (m n)) ∧ (∀ n, (S.covs n).PosDef) ∧ (∀ x, g x = ∑ n, a n * gauss (m n) (S.covs n) x) ∧
      (∀ x, S.prob (up x) = .fin (g x)) ∧ (∀ x, S.logProb (up x) = .fin (Real.log (g x))) ∧ (∀ x, 0 < g x) ∧
      Integrable g ∧ ∫ x, g x = 1 := by
  rcases reach_posDef hd hN hk hs h with ⟨⟨⟨m, a, hm, -, ha, hsum, -, hmw⟩, -⟩, hp⟩ | h
  swap
  · exact absurd h.weights hw
  have hn := fun n => normalLog_gauss (m n) (S.covs n) (hp n)
  have hl : ∀ x n, normalLog (S.means n) (S.covs n) (up x) = .fin (Real.log (gauss (m n) (S.covs n) x)) := by
    intro x n
    rw [hm]
    exact ((hn n).1 x).2
  have hmix : ∀ x, mixAt a (fun n => Real.log (gauss (m n) (S.covs n) x)) = ∑ n, a n * gauss (m n) (S.covs n) x := by
    intro x
    unfold mixAt
    exact Finset.sum_congr rfl fun n _ => by rw [Real.exp_log ((hn n).1 x).1]
  refine ⟨a, m, fun x => ∑ n, a n * gauss (m n) (S.covs n) x, ha, hsum, hm, hp, fun _ => rfl, ?_, ?_, ?_, ?_, ?_⟩
  · intro x
    unfold prob
    simp only [hl]
    rw [hmw]
    have : List.zipWith (fun l w => XF.exp l * w)
        (List.ofFn fun n => XF.fin (Real.log (gauss (m n) (S.covs n) x))) ((List.ofFn a).map XF.fin) =
        (List.ofFn fun n => a n * gauss (m n) (S.covs n) x).map XF.fin := by
      rw [List.map_ofFn, zipWith_ofFn, List.map_ofFn]
      congr 1
      funext n
      simp [XF.exp, Real.exp_log ((hn n).1 x).1, mul_comm]
    rw [this, XF.sum_map_fin, List.sum_ofFn]
  · intro x
    rw [logProb_fin hN S (up x) a _ ha hmw (hl x), hmix]
  · intro x
    show 0 < ∑ n, a n * gauss (m n) (S.covs n) x
    rw [← hmix]
    exact mixAt_pos hN a _ ha
  · exact integrable_finset_sum _ fun n _ => (hn n).2.1.const_mul _
  · rw [integral_finset_sum _ fun n _ => (hn n).2.1.const_mul _]
    simp only [integral_const_mul, (hn _).2.2, mul_one]
    exact hsum

/-- **C98** is violated by M-PMC: if a batch misses the support of the target, `prob` is undefined at every point from then
on. -/
theorem C98_refuted : ¬ ∀ (t : (Fin 1 → XF ℝ) → XF ℝ), (∀ x : Fin 1 → ℝ, IsLogDensity (t (up x))) →
    (∃ x : Fin 1 → ℝ, 0 < densOf (t (up x))) → ∀ (S : PMC 1 1), Reach 2 1 0 1 S → ∀ n expired script S',
      importanceSample 2 t n expired script S = .done S' → ∃ x, S'.prob x ≠ .nan := by
  intro h
  obtain ⟨S, hS⟩ := reset_ok (d := 1) (N := 1) one_pos 1 one_pos 0 1 0
  obtain ⟨hg, hs, -⟩ := reset_good one_pos 2 1 0 1 0 S hS
  set t : (Fin 1 → XF ℝ) → XF ℝ := fun x => if XF.ltb (.fin 5) (x 0) then .fin 0 else .ninf with ht
  have hlog : ∀ x : Fin 1 → ℝ, IsLogDensity (t (up x)) := by
    intro x
    simp only [ht]
    split
    · exact Or.inr ⟨0, rfl⟩
    · exact Or.inl rfl
  have hne : exIter.noise 0 0 0 ≠ exIter.noise 0 1 0 := by simp [exIter]
  obtain ⟨e1, -, l1, -, m, hm, hp⟩ := body_one_dim S hg t hlog exIter hne
  have hm0 : m = 0 := by
    unfold reset at hS
    rw [if_neg (by norm_num), if_pos (by simp [Matrix.det_unique]), setWeights_uniform 1 one_pos] at hS
    cases hS
    have : XF.fin ((0 : ℝ) + (1 - 0) * 0) = .fin m := hm
    simpa using this.symm
  have hP := hp (by
    intro j hj
    have hlt : ¬ (5 : ℝ) < 0 + (j : ℝ) := by
      have : (j : ℝ) < 2 := by exact_mod_cast hj
      linarith
    simp only [ht, hm0, exIter, up, XF.ltb, hlt, decide_false, densOf]
    simp)
  rw [hs] at l1
  have hr : importanceSample 2 t 2 false [exIter] S = .done (body 2 t exIter S).1 := by
    unfold importanceSample
    have e : body 2 t exIter S = ((body 2 t exIter S).1, none) := Prod.ext rfl e1
    rw [whileScript, if_pos (by simp [hs]), e]
    simp only
    rw [whileScript, if_neg (by simp [l1])]
  obtain ⟨x, hx⟩ := h t hlog ⟨fun _ => 6, by simp [ht, up, XF.ltb, densOf]; norm_num⟩ S (Reach.reset (k := 2) 0 S hS) 2
    false _ _ hr
  apply hx
  unfold prob
  rw [hP.model]
  have : normalLog ((body 2 t exIter S).1.means 0) ((body 2 t exIter S).1.covs 0) x = .nan := by
    unfold normalLog
    rw [if_neg]
    rintro ⟨h1, -⟩
    have := h1 0
    rw [hP.means] at this
    cases this
  simp [List.ofFn_succ, this, XF.exp]

end PMC
end Verif
