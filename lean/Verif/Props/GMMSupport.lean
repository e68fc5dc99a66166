import Verif.Proof.GMMSupport

/-!
# Property C130: the mass that the reported support of a generated mixture holds
-/

set_option linter.unusedSectionVars false
set_option autoImplicit false

namespace Verif

open MeasureTheory ProbabilityTheory

variable {d : ℕ}

/-- The generated mixture reports a probability density, and its support holds more than half of the mass. -/
def GMM.SupportHoldsMost (g : GMM d) : Prop :=
  ∃ dens : (Fin d → ℝ) → ℝ, (∀ data, g.prob data = data.map fun x => .fin (dens x)) ∧ ∫ x, dens x = 1 ∧
    HoldsMost dens g.support.1 g.support.2

/-- The density is determined by the values `prob` reports. -/
theorem GMM.dens_unique {g : GMM d} {f h : (Fin d → ℝ) → ℝ} (hf : ∀ data, g.prob data = data.map fun x => .fin (f x))
    (hh : ∀ data, g.prob data = data.map fun x => .fin (h x)) : f = h := by
  funext x
  have := (hf [x]).symm.trans (hh [x])
  simpa using this

theorem usable_draws (n : ℕ) (uW : ℕ → ℝ) (h0 : ∀ i, UnitDraw (uW i)) (hpos : ∃ i < n, 0 < uW i) :
    UsableWeights (((List.range n).map uW).map fun w => (.fin w / .fin ((List.range n).map uW).sum : XF ℝ)) := by
  obtain ⟨i, hi, hp⟩ := hpos
  have hs : 0 < ((List.range n).map uW).sum := by
    refine lt_of_lt_of_le hp (List.single_le_sum ?_ _ (List.mem_map.2 ⟨i, List.mem_range.2 hi, rfl⟩))
    intro x hx
    obtain ⟨j, -, rfl⟩ := List.mem_map.1 hx
    exact (h0 j).1
  refine ⟨⟨uW i / ((List.range n).map uW).sum, by positivity, ?_⟩, ?_⟩
  · refine List.mem_map.2 ⟨uW i, List.mem_map.2 ⟨i, List.mem_range.2 hi, rfl⟩, ?_⟩
    rw [XF.fin_div_ne _ _ hs.ne']
  · intro hx
    obtain ⟨w, -, e⟩ := List.mem_map.1 hx
    rw [XF.fin_div_ne _ _ hs.ne'] at e
    cases e

/-- What the random generator hands to the constructor. -/
theorem randomGMM_mk (spaceMin spaceMax : Fin d → ℝ) (n : ℕ) (hn : 0 < n) (sMin sMax : Fin d → ℝ)
    (uS uM : ℕ → Fin d → ℝ) (uW : ℕ → ℝ) :
    ∃ (mu sig : ℕ → Fin d → ℝ) (lo hi : Fin d → ℝ), (∀ i k, sig i k = npUniform (sMin k) (sMax k) (uS i k)) ∧
      randomGMM spaceMin spaceMax n sMin sMax uS uM uW = GMM.mk' ((List.range n).map mu) ((List.range n).map sig)
        (some (((List.range n).map uW).map fun w => (.fin w / .fin ((List.range n).map uW).sum : XF ℝ))) (lo, hi) ∧
      (∀ k, (∀ i < n, lo k ≤ mu i k - 5 * sig i k) ∧ ∃ i < n, lo k = mu i k - 5 * sig i k) ∧
      ∀ k, (∀ i < n, mu i k + 5 * sig i k ≤ hi k) ∧ ∃ i < n, hi k = mu i k + 5 * sig i k := by
  set sig : ℕ → Fin d → ℝ := fun i k => npUniform (sMin k) (sMax k) (uS i k) with hsig
  set mu : ℕ → Fin d → ℝ := fun i k => npUniform (spaceMin k + 5 * sig i k) (spaceMax k - 5 * sig i k) (uM i k) with hmu
  obtain ⟨lo, hlo, hlo'⟩ := minAxis0_spec ((List.range n).map fun i => fun k => mu i k - 5 * sig i k) (by simp; omega)
  obtain ⟨hi, hhi, hhi'⟩ := maxAxis0_spec ((List.range n).map fun i => fun k => mu i k + 5 * sig i k) (by simp; omega)
  refine ⟨mu, sig, lo, hi, fun _ _ => rfl, ?_, fun k => ⟨fun i hi => ?_, ?_⟩, fun k => ⟨fun i hi => ?_, ?_⟩⟩
  · unfold randomGMM
    show (match minAxis0 (List.zipWith (fun (m c : Fin d → ℝ) => fun k => m k - 5 * c k) ((List.range n).map mu) ((List.range n).map sig)) with
      | .error e => (Except.error e : Except PyErr (GMM d))
      | .ok lo =>
        match maxAxis0 (List.zipWith (fun (m c : Fin d → ℝ) => fun k => m k + 5 * c k) ((List.range n).map mu) ((List.range n).map sig)) with
        | .error e => (Except.error e : Except PyErr (GMM d))
        | .ok hi => GMM.mk' ((List.range n).map mu) ((List.range n).map sig) (some _) (lo, hi)) = _
    rw [List.zipWith_map, List.zipWith_self, List.zipWith_map, List.zipWith_self, hlo, hhi]
  · exact (hlo' k).1 (fun k => mu i k - 5 * sig i k) (List.mem_map.2 ⟨i, List.mem_range.2 hi, rfl⟩)
  · obtain ⟨r, hr, e⟩ := (hlo' k).2
    obtain ⟨i, hi, rfl⟩ := List.mem_map.1 hr
    exact ⟨i, List.mem_range.1 hi, e⟩
  · exact (hhi' k).1 (fun k => mu i k + 5 * sig i k) (List.mem_map.2 ⟨i, List.mem_range.2 hi, rfl⟩)
  · obtain ⟨r, hr, e⟩ := (hhi' k).2
    obtain ⟨i, hi, rfl⟩ := List.mem_map.1 hr
    exact ⟨i, List.mem_range.1 hi, e⟩

theorem gmm_support {means sigmas : List (Fin d → ℝ)} {ws : Option (List (XF ℝ))} {s : (Fin d → ℝ) × (Fin d → ℝ)}
    {g : GMM d} (h : GMM.mk' means sigmas ws s = .ok g) : g.support = s := by
  unfold GMM.mk' at h
  split_ifs at h
  split at h
  · cases h
  · dsimp only at h
    split at h
    · cases h
    · cases h
      rfl

/-- **C130, partial** (random mixtures). For every number of components, all bounds on the variances and every outcome
of the generator, the support holds at least `1 - 2 Σ exp (-25 sigma_min k / 2)` of the mass, hence more than half of it
when the sum of these exponentials is below a quarter. (Missing: small variances or many dimensions, see `C130_refuted`.) -/
theorem C130_partial_random (spaceMin spaceMax : Fin d → ℝ) (n : ℕ) (sMin sMax : Fin d → ℝ)
    (hs : ∀ k, 0 < sMin k ∧ sMin k ≤ sMax k) (uS uM : ℕ → Fin d → ℝ) (uW : ℕ → ℝ) (hS : ∀ i k, UnitDraw (uS i k))
    (hW : ∀ i, UnitDraw (uW i)) (hpos : ∃ i < n, 0 < uW i) :
    ∃ (g : GMM d) (dens : (Fin d → ℝ) → ℝ), randomGMM spaceMin spaceMax n sMin sMax uS uM uW = .ok g ∧
      (∀ data, g.prob data = data.map fun x => .fin (dens x)) ∧ ∫ x, dens x = 1 ∧
      1 - ∑ k, 2 * Real.exp (-(25 * sMin k / 2)) ≤ boxMass dens g.support.1 g.support.2 ∧
      (∑ k, Real.exp (-(25 * sMin k / 2)) < 1/4 → g.SupportHoldsMost) := by
  have hn : 0 < n := by obtain ⟨i, hi, -⟩ := hpos; omega
  obtain ⟨mu, sig, lo, hi, hsig, hmk, hlo, hhi⟩ := randomGMM_mk spaceMin spaceMax n hn sMin sMax uS uM uW
  have hb : ∀ i k, sMin k ≤ sig i k := fun i k => by rw [hsig]; exact (npUniform_bounds (hs k).2 (hS i k)).1
  have hv : ∀ v ∈ (List.range n).map sig, ∀ k, 0 < v k := by
    intro v hv k
    obtain ⟨i, _, rfl⟩ := List.mem_map.1 hv
    exact lt_of_lt_of_le (hs k).1 (hb i k)
  obtain ⟨g, w, hg, hw, hwl, -, -, hprob, -, -, hint, hone⟩ := C91_gmm_density ((List.range n).map mu) ((List.range n).map sig)
    (by simp; omega) (by simp) hv
    (some (((List.range n).map uW).map fun w => (.fin w / .fin ((List.range n).map uW).sum : XF ℝ))) (by rintro l ⟨⟩; exact ⟨by simp, usable_draws n uW hW hpos⟩) (lo, hi)
  have hsup := gmm_support hg
  have hmass : 1 - ∑ k, 2 * Real.exp (-(25 * sMin k / 2)) ≤
      boxMass (gaussMix ((List.range n).map mu) ((List.range n).map sig) w) g.support.1 g.support.2 := by
    rw [hsup]
    have hzip : List.zip ((List.range n).map mu) ((List.range n).map sig) = (List.range n).map fun i => (mu i, sig i) := by
      rw [List.zip_map']
    unfold gaussMix
    rw [(gaussMix_boxMass _ (fun p hp => hv p.2 (List.of_mem_zip hp).2) w lo hi).2]
    have := weighted_ge (List.zip ((List.range n).map mu) ((List.range n).map sig))
      (fun p => boxMass (gaussDiag p.1 p.2) lo hi) w (by rw [hwl]; simp) hw.1 (1 - ∑ k, 2 * Real.exp (-(25 * sMin k / 2))) (by
        intro p hp
        rw [hzip] at hp
        obtain ⟨i, hi', rfl⟩ := List.mem_map.1 hp
        refine le_trans ?_ (gaussDiag_boxMass_ge (mu i) (sig i) (fun k => lt_of_lt_of_le (hs k).1 (hb i k)) lo hi
          (fun k => (hlo k).1 i (List.mem_range.1 hi')) fun k => (hhi k).1 i (List.mem_range.1 hi'))
        refine sub_le_sub_left (Finset.sum_le_sum fun k _ => ?_) 1
        have := hb i k
        gcongr)
    rwa [hw.2, mul_one] at this
  refine ⟨g, _, hmk.trans hg, hprob, hone, hmass, fun hq => ⟨_, hprob, hone, hint, ?_⟩⟩
  rw [hone]
  rw [← Finset.mul_sum] at hmass
  linarith

/-- Unit variances in three dimensions meet the condition. -/
example : ∑ _k : Fin 3, Real.exp (-(25 * (1:ℝ) / 2)) < 1/4 := by
  have h : Real.exp (-(25 * (1:ℝ) / 2)) < 1/13 := by
    rw [Real.exp_neg, inv_eq_one_div]
    apply one_div_lt_one_div_of_lt (by norm_num)
    have := Real.add_one_lt_exp (x := 25 * (1:ℝ) / 2) (by norm_num)
    linarith
  simp only [Finset.sum_const, Finset.card_univ, Fintype.card_fin, nsmul_eq_mul]
  push_cast
  linarith

/-- **C130, partial** (egg boxes). For every box, resolution and variance, the support of the egg box holds at least
`1 - 2 d exp (-25 sigma / 2)` of the mass and at most the volume of the support times the peak of a component. -/
theorem C130_partial_egg_box (hd : 0 < d) (lo hi res : Fin d → ℝ) (sigma : ℝ) (hb : ∀ i, lo i ≤ hi i)
    (hr : ∀ i, 0 < res i) (hs : 0 < sigma) :
    ∃ (g : GMM d) (dens : (Fin d → ℝ) → ℝ), eggBoxGMM lo hi res sigma = .ok g ∧
      (∀ data, g.prob data = data.map fun x => .fin (dens x)) ∧ ∫ x, dens x = 1 ∧
      1 - 2 * d * Real.exp (-(25 * sigma / 2)) ≤ boxMass dens g.support.1 g.support.2 ∧
      boxMass dens g.support.1 g.support.2 ≤ ∏ k, (hi k - lo k + 10 * sigma) / Real.sqrt (2 * Real.pi * sigma) ∧
      (d * Real.exp (-(25 * sigma / 2)) < 1/4 → g.SupportHoldsMost) := by
  obtain ⟨grid, dims, shape, hgr, hsh, hax, hlen, hnd, hmem, hin⟩ := C68_make_grid hd lo hi res hb hr
  have hne : grid ≠ [] := by
    intro h
    rw [h] at hlen
    have : 0 < ∏ i, shape i := Finset.prod_pos fun i _ => by rw [hsh i]; omega
    simp at hlen; omega
  have hl0 : 0 < grid.length := List.length_pos_of_ne_nil hne
  have hv : ∀ v ∈ grid.map (fun _ => fun _ : Fin d => 1 * sigma), ∀ k, 0 < v k := by
    intro v hv k
    obtain ⟨_, _, rfl⟩ := List.mem_map.1 hv
    simpa using hs
  obtain ⟨g, w, hg, hw, hwl, -, -, hprob, -, -, hint, hone⟩ := C91_gmm_density grid (grid.map fun _ => fun _ => 1 * sigma) hne
    (by simp) hv (some (List.replicate grid.length (.fin (1 / grid.length))))
    (by rintro l ⟨⟩; exact ⟨by simp, usable_default _ hl0⟩) (fun k => lo k - 5 * sigma, fun k => hi k + 5 * sigma)
  have hsup := gmm_support hg
  have hzip : ∀ p ∈ List.zip grid (grid.map fun _ => fun _ : Fin d => 1 * sigma), p.1 ∈ grid ∧ p.2 = fun _ => sigma := by
    intro p hp
    refine ⟨(List.of_mem_zip hp).1, ?_⟩
    obtain ⟨_, _, e⟩ := List.mem_map.1 (List.of_mem_zip hp).2
    rw [← e]
    simp
  have hmass : boxMass (gaussMix grid (grid.map fun _ => fun _ => 1 * sigma) w) (fun k => lo k - 5 * sigma)
      (fun k => hi k + 5 * sigma) = _ :=
    (gaussMix_boxMass (List.zip grid (grid.map fun _ => fun _ : Fin d => 1 * sigma)) (fun p hp => hv p.2 (List.of_mem_zip hp).2)
      w (fun k => lo k - 5 * sigma) fun k => hi k + 5 * sigma).2
  have hge : 1 - 2 * d * Real.exp (-(25 * sigma / 2)) ≤
      boxMass (gaussMix grid (grid.map fun _ => fun _ => 1 * sigma) w) g.support.1 g.support.2 := by
    rw [hsup, hmass]
    have := weighted_ge (List.zip grid (grid.map fun _ => fun _ : Fin d => 1 * sigma))
      (fun p => boxMass (gaussDiag p.1 p.2) (fun k => lo k - 5 * sigma) fun k => hi k + 5 * sigma) w (by rw [hwl]; simp) hw.1
      (1 - 2 * d * Real.exp (-(25 * sigma / 2))) (by
        intro p hp
        obtain ⟨h1, h2⟩ := hzip p hp
        simp only [h2]
        refine le_trans (le_of_eq ?_) (gaussDiag_boxMass_ge p.1 (fun _ => sigma) (fun _ => hs) _ _
          (fun k => by have := (hin p.1 h1 k).1; linarith) fun k => by have := (hin p.1 h1 k).2; linarith)
        simp
        ring)
    rwa [hw.2, mul_one] at this
  refine ⟨g, _, by unfold eggBoxGMM; rw [hgr]; exact hg, hprob, hone, hge, ?_, fun hq => ⟨_, hprob, hone, hint, ?_⟩⟩
  · rw [hsup, hmass]
    have := weighted_le (List.zip grid (grid.map fun _ => fun _ : Fin d => 1 * sigma))
      (fun p => boxMass (gaussDiag p.1 p.2) (fun k => lo k - 5 * sigma) fun k => hi k + 5 * sigma) w (by rw [hwl]; simp) hw.1
      (∏ k, (hi k - lo k + 10 * sigma) / Real.sqrt (2 * Real.pi * sigma)) (by
        intro p hp
        obtain ⟨h1, h2⟩ := hzip p hp
        simp only [h2]
        refine (gaussDiag_boxMass_le p.1 (fun _ => sigma) (fun _ => hs) _ _ fun k => by
          have := hb k; linarith).trans (le_of_eq ?_)
        refine Finset.prod_congr rfl fun k _ => ?_
        congr 1
        ring)
    rwa [hw.2, mul_one] at this
  · rw [hone]
    linarith

/-- **C130 fails for the defaults.** In three dimensions with the default variances (0.04 to 0.05), a mixture with one
component reports a support with less than half of its mass, in every space and for every outcome of the generator. -/
theorem C130_refuted_default (spaceMin spaceMax : Fin 3 → ℝ) (uS uM : ℕ → Fin 3 → ℝ) (uW : ℕ → ℝ)
    (hS : ∀ i k, UnitDraw (uS i k)) (hW : ∀ i, UnitDraw (uW i)) (hpos : 0 < uW 0) :
    ∃ g, randomGMM spaceMin spaceMax 1 (fun _ => 1/25) (fun _ => 1/20) uS uM uW = .ok g ∧ ¬ g.SupportHoldsMost := by
  obtain ⟨mu, sig, lo, hi, hsig, hmk, hlo, hhi⟩ := randomGMM_mk spaceMin spaceMax 1 one_pos (fun _ => 1/25) (fun _ => 1/20) uS uM uW
  have hb : ∀ k, 1/25 ≤ sig 0 k ∧ sig 0 k ≤ 1/20 := fun k => by
    rw [hsig]
    exact npUniform_bounds (by norm_num) (hS 0 k)
  have hv0 : ∀ k, 0 < sig 0 k := fun k => by linarith [(hb k).1]
  have hr : List.range 1 = [0] := rfl
  have hlo' : lo = fun k => mu 0 k - 5 * sig 0 k := by
    funext k
    obtain ⟨i, hi, e⟩ := (hlo k).2
    obtain rfl : i = 0 := by omega
    exact e
  have hhi' : hi = fun k => mu 0 k + 5 * sig 0 k := by
    funext k
    obtain ⟨i, hi, e⟩ := (hhi k).2
    obtain rfl : i = 0 := by omega
    exact e
  have hus := usable_draws 1 uW hW ⟨0, one_pos, hpos⟩
  rw [hr] at hmk hus
  obtain ⟨g, w, hg, hw, hwl, -, -, hprob, -, -, hint, hone⟩ := C91_gmm_density ([0].map mu) ([0].map sig)
    (by simp) (by simp) (by intro v hv; simp at hv; rw [hv]; exact hv0)
    (some (([0].map uW).map fun w => (.fin w / .fin ([0].map uW).sum : XF ℝ))) (by rintro l ⟨⟩; exact ⟨by simp, hus⟩) (lo, hi)
  have hsup := gmm_support hg
  refine ⟨g, hmk.trans hg, ?_⟩
  rintro ⟨dens, hp, -, -, hm⟩
  rw [GMM.dens_unique hp hprob, hone, hsup] at hm
  obtain ⟨a, rfl⟩ : ∃ a, w = [a] := List.length_eq_one_iff.1 (by simpa using hwl)
  have ha : a = 1 := by have := hw.2; simpa using this
  have e : gaussMix ([0].map mu) ([0].map sig) [a] = gaussDiag (mu 0) (sig 0) := by
    funext x
    simp [gaussMix, ha]
  rw [e, hlo', hhi', gaussDiag_boxMass _ _ hv0] at hm
  have hle : ∏ k : Fin 3, (gaussianReal (mu 0 k) (NNReal.mk (sig 0 k) (hv0 k).le)).real
      (Set.Icc (mu 0 k - 5 * sig 0 k) (mu 0 k + 5 * sig 0 k)) ≤ ∏ _k : Fin 3, (78/100 : ℝ) := by
    refine Finset.prod_le_prod (fun k _ => measureReal_nonneg) fun k _ => ?_
    have hne : NNReal.mk (sig 0 k) (hv0 k).le ≠ 0 := by
      intro h
      exact (hv0 k).ne' (congrArg NNReal.toReal h)
    exact gaussianReal_default (mu 0 k) (NNReal.mk (sig 0 k) (hv0 k).le) hne (hb k).2
  simp only [Finset.prod_const, Finset.card_univ, Fintype.card_fin] at hle
  norm_num at hle hm
  linarith

/-- **C130, refuted**, for both generators: for random mixtures by the default variances in a cube of side 10, and for
egg boxes by two components of variance 1/400 at distance 1/40. -/
theorem C130_refuted :
    (¬ ∀ (d : ℕ) (spaceMin spaceMax : Fin d → ℝ) (n : ℕ), 0 < n → ∀ sMin sMax : Fin d → ℝ,
      (∀ k, 0 < sMin k ∧ sMin k ≤ sMax k) → (∀ k, 10 * sMax k ≤ spaceMax k - spaceMin k) →
      ∀ (uS uM : ℕ → Fin d → ℝ) (uW : ℕ → ℝ), (∀ i k, UnitDraw (uS i k)) → (∀ i k, UnitDraw (uM i k)) →
      (∀ i, UnitDraw (uW i) ∧ 0 < uW i) →
      ∃ g, randomGMM spaceMin spaceMax n sMin sMax uS uM uW = .ok g ∧ g.SupportHoldsMost) ∧
    ¬ ∀ (d : ℕ) (lo hi res : Fin d → ℝ) (sigma : ℝ), 0 < d → (∀ i, lo i < hi i) → (∀ i, 0 < res i) → 0 < sigma →
      ∃ g, eggBoxGMM lo hi res sigma = .ok g ∧ g.SupportHoldsMost := by
  constructor
  · intro h
    have hU : ∀ (i : ℕ) (k : Fin 3), UnitDraw ((fun _ _ => 0 : ℕ → Fin 3 → ℝ) i k) := fun _ _ => ⟨le_refl _, one_pos⟩
    have hW : ∀ i : ℕ, UnitDraw ((fun _ => 1/2 : ℕ → ℝ) i) := fun _ => ⟨by norm_num, by norm_num⟩
    obtain ⟨g, hg, hm⟩ := h 3 (fun _ => 0) (fun _ => 10) 1 one_pos (fun _ => 1/25) (fun _ => 1/20) (by intro k; norm_num)
      (by intro k; norm_num) _ _ _ hU hU fun i => ⟨hW i, by norm_num⟩
    obtain ⟨g', hg', hn⟩ := C130_refuted_default (fun _ => 0) (fun _ => 10) _ (fun _ _ => 0) _ hU hW (by norm_num)
    rw [hg] at hg'
    cases hg'
    exact hn hm
  · intro h
    obtain ⟨g, hg, dens, hp, -, -, hm⟩ := h 1 (fun _ => 0) (fun _ => 1/40) (fun _ => 1/80) (1/400) one_pos
      (fun _ => by norm_num) (fun _ => by norm_num) (by norm_num)
    obtain ⟨g', dens', hg', hp', hone, -, hle, -⟩ := C130_partial_egg_box one_pos (fun _ : Fin 1 => 0) (fun _ => 1/40)
      (fun _ => 1/80) (1/400) (fun _ => by norm_num) (fun _ => by norm_num) (by norm_num)
    rw [hg] at hg'
    cases hg'
    rw [GMM.dens_unique hp hp', hone] at hm
    have hsq : 1/10 < Real.sqrt (2 * Real.pi * (1/400)) := by
      apply Real.lt_sqrt_of_sq_lt
      have := Real.pi_gt_three
      linarith
    have hfin : ((1:ℝ)/40 - 0 + 10 * (1/400)) / Real.sqrt (2 * Real.pi * (1/400)) < 1/2 := by
      rw [div_lt_iff₀ (by linarith)]
      linarith
    simp only [Fin.prod_univ_one] at hle
    linarith

end Verif
