import Verif.Proof.MPMCRun
import Mathlib.LinearAlgebra.Matrix.Rank

/-!
# Properties C44, C80, C81, C82: runs of mixture population Monte Carlo

Targets are given by their log density, which at points of the space is a number or `-inf`. Component selection, normal noise
and clock are arbitrary.
-/

set_option linter.unusedSectionVars false
set_option autoImplicit false

namespace Verif

open Matrix

variable {d N : ℕ}

namespace PMC

/-- The states of an M-PMC object after construction or reset and after calls of `importance_sample` that returned or are
still running; every call may use another target. -/
inductive Reach (k : ℕ) (sigma : ℝ) (lo hi : Fin d → ℝ) : PMC d N → Prop
  | reset (u : Fin N → Fin d → ℝ) (S : PMC d N) (h : reset N sigma lo hi u = .ok S) : Reach k sigma lo hi S
  | call (S : PMC d N) (hS : Reach k sigma lo hi S) (t : (Fin d → XF ℝ) → XF ℝ)
      (ht : ∀ x : Fin d → ℝ, IsLogDensity (t (up x))) (n : ℕ) (expired : Bool) (script : List (Iter d)) (S' : PMC d N)
      (h : importanceSample k t n expired script S = .done S' ∨ importanceSample k t n expired script S = .running S') :
      Reach k sigma lo hi S'

theorem reset_good (hN : 0 < N) (k : ℕ) (sigma : ℝ) (lo hi : Fin d → ℝ) (u : Fin N → Fin d → ℝ) (S : PMC d N)
    (h : reset N sigma lo hi u = .ok S) : Good k S ∧ S.samples = [] ∧ S.weights = [] := by
  unfold reset at h
  rw [if_neg (by omega)] at h
  split at h
  · rename_i hdet
    rw [setWeights_uniform N hN] at h
    cases h
    refine ⟨⟨⟨fun n i => lo i + (hi i - lo i) * u n i, fun _ => 1 / (N : ℝ), rfl, fun _ => hdet, ?_, ?_, rfl, ?_⟩,
      [], [], rfl, rfl, by simp, by simp⟩, rfl, rfl⟩
    · intro n
      have : (0 : ℝ) < N := by exact_mod_cast hN
      positivity
    · have : (0 : ℝ) < N := by exact_mod_cast hN
      simp
      field_simp
    · simp
  · cases h

theorem reset_ok (hN : 0 < N) (sigma : ℝ) (hs : 0 < sigma) (lo hi : Fin d → ℝ) (u : Fin N → Fin d → ℝ) :
    ∃ S, reset N sigma lo hi u = .ok S := by
  unfold reset
  rw [if_neg (by omega), if_pos (by rw [Matrix.det_diagonal]; exact Finset.prod_pos fun _ _ => hs),
    setWeights_uniform N hN]
  exact ⟨_, rfl⟩

/-- A good or a poisoned state. -/
theorem reach_cases (hd : 0 < d) (hN : 0 < N) {k : ℕ} (hk : 0 < k) {sigma : ℝ} {lo hi : Fin d → ℝ} {S : PMC d N}
    (h : Reach k sigma lo hi S) : Good k S ∨ Poisoned S := by
  induction h with
  | reset u S h => exact Or.inl (reset_good hN k sigma lo hi u S h).1
  | call S hS t ht n expired script S' h ih =>
    refine whileScript_inv_ok (fun S => Good k S ∨ Poisoned S) ?_ script expired S S' ih h
    rintro it s (hs | hs) _ hb
    · obtain ⟨m, idx, ys, -, -, h | h⟩ := body_good hd hN hk s hs t ht it
      · obtain ⟨-, rs, -, -, -, h | h⟩ := h
        · exact Or.inl h.2.2.1
        · rw [hb] at h
          cases h.2
      · exact Or.inr h.2.2.1
    · exact Or.inr (body_poisoned hd hN hk s hs t it).2.1

theorem good_no_nan {k : ℕ} {S : PMC d N} (h : Good k S) : XF.nan ∉ S.weights := by
  obtain ⟨xs, bs, -, h2, -⟩ := h.arrays
  rw [h2]
  simp

/-- C44: what holds. As long as no weight is undefined, the weights are a concatenation of one probability vector per batch of
`K` samples, so they add up to the number of batches. Missing with respect to C44: they do not add up to 1. -/
theorem C44_partial (hd : 0 < d) (hN : 0 < N) {k : ℕ} (hk : 0 < k) {sigma : ℝ} {lo hi : Fin d → ℝ} {S : PMC d N}
    (h : Reach k sigma lo hi S) (hnan : XF.nan ∉ S.weights) :
    ∃ bs : List (List ℝ), S.weights = bs.flatten.map XF.fin ∧ (∀ b ∈ bs, b.length = k ∧ IsProbVec b) ∧
      S.samples.length = bs.length * k ∧ S.weights.sum = XF.fin (bs.length : ℝ) := by
  rcases reach_cases hd hN hk h with h | h
  · obtain ⟨xs, bs, h1, h2, h3, h4⟩ := h.arrays
    refine ⟨bs, h2, h3, by rw [h1]; simpa using h4, ?_⟩
    rw [h2, XF.sum_map_fin]
    congr 1
    clear h2 h4
    induction bs with
    | nil => simp
    | cons b bs ih =>
      have hb := (h3 b (by simp)).2.2
      have := ih fun b hb => h3 b (by simp [hb])
      simp only [List.flatten_cons, List.sum_append, this, hb, List.length_cons]
      push_cast
      ring
  · exact absurd h.weights hnan

theorem det_one (M : Matrix (Fin 1) (Fin 1) ℝ) (h : 0 < M 0 0) : 0 < (rSafe M).det := by
  unfold rSafe
  split
  · exact det_ten_pos
  · rw [Matrix.det_unique]
    exact h

/-- In one dimension with one component and two different points an iteration does not raise. -/
theorem body_one_dim (S : PMC 1 1) (hS : Good 2 S) (target : (Fin 1 → XF ℝ) → XF ℝ)
    (ht : ∀ x : Fin 1 → ℝ, IsLogDensity (target (up x))) (it : Iter 1) (hit : it.noise 0 0 0 ≠ it.noise 0 1 0) :
    (body 2 target it S).2 = none ∧ (Good 2 (body 2 target it S).1 ∨ Poisoned (body 2 target it S).1) ∧
    (body 2 target it S).1.samples.length = S.samples.length + 2 ∧
    ((∀ x : Fin 1 → ℝ, 0 < densOf (target (up x))) → Good 2 (body 2 target it S).1) ∧
    ∃ m : ℝ, S.means 0 0 = .fin m ∧
      ((∀ j < 2, densOf (target (up fun _ => m + it.noise 0 j 0)) = 0) → Poisoned (body 2 target it S).1) := by
  obtain ⟨m, idx, ys, hm, hys, h⟩ := body_good (by norm_num) (by norm_num) (by norm_num) S hS target ht it
  have hidx : ∀ j, idx j = 0 := fun j => Subsingleton.elim _ _
  simp only [hidx] at hys
  have hys2 : ys = [fun _ => m 0 0 + it.noise 0 0 0, fun _ => m 0 0 + it.noise 0 1 0] := by
    rw [hys]
    have : List.range 2 = [0, 1] := rfl
    rw [this]
    simp only [List.map_cons, List.map_nil, Fin.isValue, List.cons.injEq, and_true]
    refine ⟨?_, ?_⟩ <;>
    · funext i
      rw [Subsingleton.elim i 0]
      rfl
  have hms : S.means 0 0 = .fin (m 0 0) := by rw [hm]; rfl
  rcases h with ⟨⟨y, hy, hpos⟩, rs, hrs, hB, hal, h | h⟩ | h
  · obtain ⟨-, h1, h2, h3, -⟩ := h
    refine ⟨h1, Or.inl h2, by rw [h3]; simp [hys2], fun _ => h2, m 0 0, hms, ?_⟩
    intro hz
    exfalso
    rw [hys2] at hy
    simp only [List.mem_cons, List.not_mem_nil, or_false] at hy
    rcases hy with rfl | rfl
    · rw [hz 0 (by norm_num)] at hpos; exact lt_irrefl _ hpos
    · rw [hz 1 (by norm_num)] at hpos; exact lt_irrefl _ hpos
  · exfalso
    obtain ⟨⟨n, hn⟩, -⟩ := h
    apply hn
    apply det_one
    rw [hys2] at hrs
    obtain ⟨r1, rs1, rfl, hr1, hrs⟩ := List.map_eq_cons_iff.1 hrs
    obtain ⟨r2, rs2, rfl, hr2, hrs⟩ := List.map_eq_cons_iff.1 hrs
    rw [List.map_eq_nil_iff] at hrs
    subst hrs
    simp only [scatter, Matrix.of_apply, List.map_cons, List.map_nil, List.sum_cons, List.sum_nil, add_zero]
    set mu := rMean [r1, r2] n
    have e1 : r1.x 0 = m 0 0 + it.noise 0 0 0 := by rw [hr1]
    have e2 : r2.x 0 = m 0 0 + it.noise 0 1 0 := by rw [hr2]
    have hne : r1.x 0 ≠ r2.x 0 := by
      rw [e1, e2]
      intro h
      exact hit (by linarith)
    have h4 : 0 < (r1.x 0 - r2.x 0) ^ 2 := by positivity [sub_ne_zero.2 hne]
    nlinarith [sq_nonneg (r1.x 0 + r2.x 0 - 2 * mu 0)]
  · obtain ⟨hz, h1, h2, h3⟩ := h
    refine ⟨h1, Or.inr h2, by rw [h3]; simp [hys2], ?_, m 0 0, hms, fun _ => h2⟩
    intro hp
    exfalso
    have := hz (fun _ => m 0 0 + it.noise 0 0 0) (by rw [hys2]; simp)
    have h5 := hp (fun _ => m 0 0 + it.noise 0 0 0)
    rw [this] at h5
    exact lt_irrefl _ h5

/-- Two iterations. -/
theorem run_two {k : ℕ} (t : (Fin d → XF ℝ) → XF ℝ) (n : ℕ) (it1 it2 : Iter d) (h1 : it1.late = false) (S S1 S2 : PMC d N)
    (hb1 : body k t it1 S = (S1, none)) (hb2 : body k t it2 S1 = (S2, none)) (hc0 : S.samples.length < n)
    (hc1 : S1.samples.length < n) (hc2 : n ≤ S2.samples.length) :
    importanceSample k t n false [it1, it2] S = .done S2 := by
  unfold importanceSample
  unfold whileScript
  simp only [hc0, decide_true, Bool.not_false, Bool.and_self, if_true, hb1]
  unfold whileScript
  simp only [hc1, decide_true, h1, Bool.not_false, Bool.and_self, if_true, hb2]
  exact whileScript_skip (by simpa using hc2)

/-- The outcomes used in the counterexamples: both points come from the only component, with noise 0 and 1. -/
def exIter : Iter 1 := ⟨fun _ _ _ => false, fun _ j _ => j, false⟩

/-- **C44** (negation) One dimension, one component, `K = 2`, a target that is positive everywhere: a call for 3 samples
returns 4 samples whose weights add up to 2. -/
theorem C44_refuted : ¬ ∀ (t : (Fin 1 → XF ℝ) → XF ℝ), (∀ x : Fin 1 → ℝ, 0 < densOf (t (up x))) →
    ∀ (S : PMC 1 1), Reach 2 1 0 1 S → ∀ n expired script S',
      importanceSample 2 t n expired script S = .done S' → S'.samples ≠ [] → S'.weights.sum = XF.fin 1 := by
  intro h
  obtain ⟨S, hS⟩ := reset_ok (d := 1) (N := 1) one_pos 1 one_pos 0 1 0
  obtain ⟨hg, hs, -⟩ := reset_good one_pos 2 1 0 1 0 S hS
  have hlog : ∀ x : Fin 1 → ℝ, IsLogDensity ((fun _ => XF.fin 0 : (Fin 1 → XF ℝ) → XF ℝ) (up x)) :=
    fun _ => Or.inr ⟨0, rfl⟩
  have hpos : ∀ x : Fin 1 → ℝ, 0 < densOf ((fun _ => XF.fin 0 : (Fin 1 → XF ℝ) → XF ℝ) (up x)) := by
    intro x; simp [densOf]
  have hne : exIter.noise 0 0 0 ≠ exIter.noise 0 1 0 := by simp [exIter]
  obtain ⟨e1, -, l1, g1, -⟩ := body_one_dim S hg (fun _ => .fin 0) hlog exIter hne
  obtain ⟨e2, -, l2, g2, -⟩ := body_one_dim _ (g1 hpos) (fun _ => .fin 0) hlog exIter hne
  have g2 := g2 hpos
  rw [l1, hs] at l2
  rw [hs] at l1
  have hr := run_two (k := 2) (fun _ => XF.fin 0) 3 exIter exIter rfl S _ _ (Prod.ext rfl e1) (Prod.ext rfl e2)
    (by rw [hs]; simp) (by rw [l1]; simp) (by rw [l2]; simp)
  have hR := Reach.reset (k := 2) 0 S hS
  have h1 := h _ hpos S hR 3 false _ _ hr (by intro h0; rw [h0] at l2; simp at l2)
  obtain ⟨bs, -, -, h3, h4⟩ := C44_partial (by norm_num) (by norm_num) (by norm_num)
    (Reach.call S hR _ hlog 3 false _ _ (Or.inl hr)) (good_no_nan g2)
  rw [h4] at h1
  rw [l2] at h3
  have : bs.length = 2 := by simp at h3; omega
  rw [this] at h1
  norm_num at h1

/-- **C80** (negation) Same sampler, a target whose density is positive exactly on `x > 5`: if the first batch misses that set,
the second batch consists of undefined points, and a call for 3 samples returns them. -/
theorem C80_refuted : ¬ ∀ (t : (Fin 1 → XF ℝ) → XF ℝ), (∀ x : Fin 1 → ℝ, IsLogDensity (t (up x))) →
    (∃ x : Fin 1 → ℝ, 0 < densOf (t (up x))) → ∀ (S : PMC 1 1), Reach 2 1 0 1 S → ∀ n expired script S',
      importanceSample 2 t n expired script S = .done S' → ∀ x ∈ S'.samples, ∃ y : Fin 1 → ℝ, x = up y := by
  intro h
  obtain ⟨S, hS⟩ := reset_ok (d := 1) (N := 1) one_pos 1 one_pos 0 1 0
  obtain ⟨hg, hs, -⟩ := reset_good one_pos 2 1 0 1 0 S hS
  set t : (Fin 1 → XF ℝ) → XF ℝ := fun x => if XF.ltb (.fin 5) (x 0) then .fin 0 else .ninf with ht
  have hlog : ∀ x : Fin 1 → ℝ, IsLogDensity (t (up x)) := by
    intro x
    simp only [ht]
    split
    · exact Or.inr ⟨0, rfl⟩
    · exact Or.inl rfl
  have hne : exIter.noise 0 0 0 ≠ exIter.noise 0 1 0 := by simp [exIter]
  obtain ⟨e1, -, l1, -, m, hm, hp⟩ := body_one_dim S hg t hlog exIter hne
  have hm0 : m = 0 := by
    unfold reset at hS
    rw [if_neg (by norm_num), if_pos (by simp [Matrix.det_unique]), setWeights_uniform 1 one_pos] at hS
    cases hS
    have : XF.fin ((0 : ℝ) + (1 - 0) * 0) = .fin m := hm
    simpa using this.symm
  have hP := hp (by
    intro j hj
    have hlt : ¬ (5 : ℝ) < 0 + (j : ℝ) := by
      have : (j : ℝ) < 2 := by exact_mod_cast hj
      linarith
    simp only [ht, hm0, exIter, up, XF.ltb, hlt, decide_false, densOf]
    simp)
  obtain ⟨e2, -, s2⟩ := body_poisoned (by norm_num) (by norm_num) (by norm_num : 0 < 2) _ hP t exIter
  rw [hs] at l1
  have l2 : (body 2 t exIter (body 2 t exIter S).1).1.samples.length = 4 := by
    rw [s2, List.length_append, l1]
    simp
  have hr := run_two (k := 2) t 3 exIter exIter rfl S _ _ (Prod.ext rfl e1) (Prod.ext rfl e2)
    (by rw [hs]; simp) (by rw [l1]; simp) (by rw [l2]; norm_num)
  obtain ⟨y, hy⟩ := h t hlog ⟨fun _ => 6, by simp [ht, up, XF.ltb, densOf]; norm_num⟩ S (Reach.reset (k := 2) 0 S hS) 3
    false _ _ hr (fun _ => .nan) (by rw [s2]; simp)
  have := congrFun hy 0
  cases this

/-- C80: what holds. As long as no weight is undefined every sample is a point of the space; once a weight is undefined (which
happens when the target is zero on a whole batch) a call never raises and every sample it adds is undefined in every
coordinate. -/
theorem C80_partial (hd : 0 < d) (hN : 0 < N) {k : ℕ} (hk : 0 < k) {sigma : ℝ} {lo hi : Fin d → ℝ} {S : PMC d N}
    (h : Reach k sigma lo hi S) :
    (XF.nan ∉ S.weights → ∀ x ∈ S.samples, ∃ y : Fin d → ℝ, x = up y) ∧
    (XF.nan ∈ S.weights → ∀ (t : (Fin d → XF ℝ) → XF ℝ) n expired script,
      (∀ e S', importanceSample k t n expired script S ≠ .raised e S') ∧
      ∃ new, (importanceSample k t n expired script S).state.samples = S.samples ++ new ∧ ∀ x ∈ new, ∀ i, x i = .nan) := by
  constructor
  · intro hn
    rcases reach_cases hd hN hk h with h | h
    · obtain ⟨xs, bs, h1, -⟩ := h.arrays
      intro x hx
      rw [h1] at hx
      obtain ⟨y, -, rfl⟩ := List.mem_map.1 hx
      exact ⟨y, rfl⟩
    · exact absurd h.weights hn
  · intro hn t n expired script
    have hP : Poisoned S := by
      rcases reach_cases hd hN hk h with h | h
      · exact absurd hn (good_no_nan h)
      · exact h
    constructor
    · intro e S' he
      unfold importanceSample at he
      clear hn h
      induction script generalizing expired S with
      | nil =>
        unfold whileScript at he
        split at he <;> cases he
      | cons it rest ih =>
        unfold whileScript at he
        obtain ⟨b1, b2, -⟩ := body_poisoned hd hN hk S hP t it
        split at he
        · cases hb : body k t it S with
          | mk S1 o =>
            rw [hb] at b1 b2 he
            simp only at b1
            subst b1
            exact ih _ b2 he
        · cases he
    · have := whileScript_inv (cond := fun S : PMC d N => decide (S.samples.length < n)) (late := Iter.late)
        (body := body k t) (fun S' => Poisoned S' ∧ ∃ new, S'.samples = S.samples ++ new ∧ ∀ x ∈ new, ∀ i, x i = .nan)
        (by
          rintro it s ⟨h1, new, h2, h3⟩ -
          obtain ⟨-, h5, h6⟩ := body_poisoned hd hN hk s h1 t it
          refine ⟨h5, new ++ List.replicate k fun _ => .nan, ?_, ?_⟩
          · rw [h6, h2, List.append_assoc]
          · intro x hx
            rcases List.mem_append.1 hx with hx | hx
            · exact h3 x hx
            · rw [List.mem_replicate] at hx
              rw [hx.2]
              intro i
              rfl)
        script expired S ⟨hP, [], by simp, by simp⟩
      exact this.2

/-! ### few samples -/

/-- The scatter matrix of at most `d` points around a weighted mean of them is singular. -/
theorem scatter_singular {rs : List (RRow d N)} (n : Fin N) (hn : rAlpha rs n ≠ 0)
    (hl : rs.length ≤ d) : (scatter rs (rMean rs n)).det = 0 := by
  set A : Matrix (Fin rs.length) (Fin d) ℝ := Matrix.of fun i a => rs[i.1].x a - rMean rs n a with hA
  have hS : scatter rs (rMean rs n) = Aᵀ * A := by
    ext a b
    rw [Matrix.mul_apply]
    simp only [scatter, Matrix.of_apply, hA, Matrix.transpose_apply]
    rw [← Fin.sum_univ_fun_getElem rs fun r => (r.x a - rMean rs n a) * (r.x b - rMean rs n b)]
  set c : Fin rs.length → ℝ := fun i => rs[i.1].w * rs[i.1].rho n with hc
  have hcs : ∑ i, c i = rAlpha rs n := by
    simp only [hc, rAlpha]
    rw [Fin.sum_univ_fun_getElem rs fun r => r.w * r.rho n]
  have hc0 : c ≠ 0 := by
    intro h0
    rw [h0] at hcs
    simp at hcs
    exact hn hcs.symm
  have hAc : Aᵀ *ᵥ c = 0 := by
    funext a
    simp only [Matrix.mulVec, dotProduct, Matrix.transpose_apply, hA, Matrix.of_apply, Pi.zero_apply]
    have : ∑ i : Fin rs.length, (rs[i.1].x a - rMean rs n a) * c i
        = (∑ i : Fin rs.length, c i * rs[i.1].x a) - rMean rs n a * ∑ i, c i := by
      rw [Finset.mul_sum, ← Finset.sum_sub_distrib]
      apply Finset.sum_congr rfl
      intro i _
      ring
    rw [this, hcs]
    have h2 : ∑ i : Fin rs.length, c i * rs[i.1].x a = (rs.map fun r => r.w * r.rho n * r.x a).sum := by
      simp only [hc]
      rw [Fin.sum_univ_fun_getElem rs fun r => r.w * r.rho n * r.x a]
    rw [h2]
    unfold rMean
    field_simp
    ring
  by_contra hdet
  have hr1 : (scatter rs (rMean rs n)).rank = d := by
    have := Matrix.rank_of_isUnit _ ((Matrix.isUnit_iff_isUnit_det _).2 (isUnit_iff_ne_zero.2 hdet))
    simpa using this
  rw [hS, Matrix.rank_transpose_mul_self, ← Matrix.rank_transpose] at hr1
  have hrn := LinearMap.finrank_range_add_finrank_ker (Aᵀ.mulVecLin)
  rw [Module.finrank_fintype_fun_eq_card, Fintype.card_fin] at hrn
  have hker : 0 < Module.finrank ℝ (LinearMap.ker Aᵀ.mulVecLin) := by
    rw [Module.finrank_pos_iff_exists_ne_zero]
    refine ⟨⟨c, ?_⟩, ?_⟩
    · rw [LinearMap.mem_ker, Matrix.mulVecLin_apply]
      exact hAc
    · intro h0
      exact hc0 (congrArg Subtype.val h0)
  unfold Matrix.rank at hr1
  omega

/-- C81: at most as many samples per batch as dimensions make `adapt` raise, unless an entry of the scatter matrix of some
component is larger than 10. -/
theorem C81_few_samples {rs : List (RRow d N)} (h : IsBatch rs) (hl : rs.length ≤ d) (n : Fin N)
    (hn : (rs.map fun r => r.w * r.rho n).sum ≠ 0)
    (hsmall : ∀ mu, newMean (rs.map RRow.up) n = up mu → ∀ a b, scatter rs mu a b ≤ 10) (S : PMC d N) :
    (adapt (rs.map RRow.up) S).2 = some .assertion := by
  have hcov : (updOf rs).cov n = scatter rs (rMean rs n) := by
    have h0 : ¬ rAlpha rs n = 0 := hn
    simp only [updOf, h0, if_false]
    unfold rSafe
    rw [if_neg]
    rintro ⟨a, b, hab⟩
    exact absurd (hsmall _ (newMean_up rs n hn) a b) (not_le.2 hab)
  rcases adapt_eq _ _ (computes_updOf h) S with ⟨h1, -⟩ | ⟨-, h2, -⟩
  · have := h1 n
    rw [hcov, scatter_singular n hn hl] at this
    exact absurd this (lt_irrefl _)
  · exact h2

/-- **C81** (negation) With `K = 1` every call of a new sampler for at least one sample raises AssertionError, whatever the
number of components, the dimension, the (positive) target and the random outcomes. -/
theorem C81_refuted (hd : 0 < d) (hN : 0 < N) (sigma : ℝ) (lo hi : Fin d → ℝ) (u : Fin N → Fin d → ℝ) (S : PMC d N)
    (hS : reset N sigma lo hi u = .ok S) (t : (Fin d → XF ℝ) → XF ℝ)
    (ht : ∀ x : Fin d → ℝ, IsLogDensity (t (up x)) ∧ 0 < densOf (t (up x))) (n : ℕ) (hn : 0 < n) (it : Iter d)
    (rest : List (Iter d)) : ∃ S', importanceSample 1 t n false (it :: rest) S = .raised .assertion S' := by
  obtain ⟨hg, hs, -⟩ := reset_good hN 1 sigma lo hi u S hS
  obtain ⟨m, idx, ys, -, hys, h⟩ := body_good hd hN one_pos S hg t (fun x => (ht x).1) it
  have hyl : ys.length = 1 := by rw [hys]; simp
  have herr : (body 1 t it S).2 = some .assertion := by
    rcases h with ⟨-, rs, hrs, hB, hal, h | h⟩ | h
    · exfalso
      have hpos := h.1 ⟨0, hN⟩
      have hl1 : rs.length = 1 := by
        have := congrArg List.length hrs
        simpa [hyl] using this
      obtain ⟨r, hr⟩ := List.length_eq_one_iff.1 hl1
      have hal0 : r.w * r.rho ⟨0, hN⟩ ≠ 0 := by
        have := hal ⟨0, hN⟩
        rw [hr] at this
        simp [rAlpha] at this
        exact this.ne'
      have hmean : rMean rs ⟨0, hN⟩ = r.x := by
        funext j
        rw [hr]
        simp only [rMean, rAlpha, List.map_cons, List.map_nil, List.sum_cons, List.sum_nil, add_zero]
        exact mul_div_cancel_left₀ _ hal0
      have hsc : scatter rs (rMean rs ⟨0, hN⟩) = 0 := by
        ext a b
        rw [hmean, hr]
        simp [scatter]
      rw [hsc] at hpos
      have : rSafe (0 : Matrix (Fin d) (Fin d) ℝ) = 0 := by
        unfold rSafe
        rw [if_neg]
        rintro ⟨a, b, hab⟩
        simp at hab
        norm_num at hab
      have : Nonempty (Fin d) := ⟨⟨0, hd⟩⟩
      rw [‹rSafe _ = _›, Matrix.det_zero] at hpos
      exact lt_irrefl _ hpos
    · exact h.2
    · exfalso
      obtain ⟨y, hy⟩ := List.exists_mem_of_length_pos (by rw [hyl]; norm_num : 0 < ys.length)
      have := (ht y).2
      rw [h.1 y hy] at this
      exact lt_irrefl _ this
  refine ⟨(body 1 t it S).1, ?_⟩
  unfold importanceSample whileScript
  rw [if_pos (by simp [hs, hn])]
  cases hb : body 1 t it S with
  | mk S1 e =>
    rw [hb] at herr
    simp only at herr
    subst herr
    rfl

/-- C81 is not vacuous: such samplers exist in every dimension. -/
example : ∃ S : PMC 3 2, reset 2 1 0 1 (fun _ _ => 1 / 2) = .ok S := reset_ok (by norm_num) 1 one_pos 0 1 _

/-! ### accounting -/

theorem mapM_length {α β : Type*} (f : α → Except PyErr β) (l : List α) : ∀ ys, l.mapM f = .ok ys → ys.length = l.length := by
  induction l with
  | nil =>
    intro ys h
    cases h
    rfl
  | cons a l ih =>
    intro ys h
    rw [List.mapM_cons] at h
    cases hf : f a with
    | error e => rw [hf] at h; cases h
    | ok b =>
      rw [hf] at h
      cases hl : l.mapM f with
      | error e => rw [hl] at h; cases h
      | ok bs =>
        rw [hl] at h
        cases h
        simp [ih bs hl]

theorem mixtureSample_length {Y : Type*} (n : ℕ) (ws : List (XF ℝ)) (bern : ℕ → ℕ → ℝ → Bool) (dr : ℕ → ℕ → Y) (k : ℕ)
    (ys : List Y) (h : mixtureSample n ws bern dr k = .ok ys) : ys.length = k := by
  unfold mixtureSample at h
  split at h
  · split at h
    · cases h; simp_all
    · cases h
  · have := mapM_length _ _ _ h
    simpa using this

theorem setMoments_keeps (S : PMC d N) (n : Fin N) (mean : Fin d → XF ℝ) (C : Fin d → Fin d → XF ℝ) :
    (setMoments S n mean C).1.samples = S.samples ∧ (setMoments S n mean C).1.weights = S.weights ∧
    (setMoments S n mean C).1.numPi = S.numPi ∧ (setMoments S n mean C).1.numQEval = S.numQEval ∧
    (setMoments S n mean C).1.numQ = S.numQ := by
  unfold setMoments
  split <;> exact ⟨rfl, rfl, rfl, rfl, rfl⟩

theorem adaptLoop_keeps (rows : List (Row d N)) (ns : List (Fin N)) (S : PMC d N) :
    (adaptLoop rows ns S).1.samples = S.samples ∧ (adaptLoop rows ns S).1.weights = S.weights ∧
    (adaptLoop rows ns S).1.numPi = S.numPi ∧ (adaptLoop rows ns S).1.numQEval = S.numQEval ∧
    (adaptLoop rows ns S).1.numQ = S.numQ := by
  induction ns generalizing S with
  | nil => exact ⟨rfl, rfl, rfl, rfl, rfl⟩
  | cons n ns ih =>
    unfold adaptLoop
    have hk := setMoments_keeps { S with alpha := Function.update S.alpha n (newAlpha rows n) } n (newMean rows n)
      (failsafe (newCov rows n))
    cases hb : adaptOne rows S n with
    | mk S' e =>
      unfold adaptOne at hb
      rw [hb] at hk
      cases e with
      | none =>
        obtain ⟨h1, h2, h3, h4, h5⟩ := ih S'
        obtain ⟨k1, k2, k3, k4, k5⟩ := hk
        exact ⟨h1.trans k1, h2.trans k2, h3.trans k3, h4.trans k4, h5.trans k5⟩
      | some e => exact hk

theorem adapt_keeps (rows : List (Row d N)) (S : PMC d N) :
    (adapt rows S).1.samples = S.samples ∧ (adapt rows S).1.weights = S.weights ∧
    (adapt rows S).1.numPi = S.numPi ∧ (adapt rows S).1.numQEval = S.numQEval ∧ (adapt rows S).1.numQ = S.numQ := by
  have hk := adaptLoop_keeps rows (List.finRange N) S
  unfold adapt
  cases hb : adaptLoop rows (List.finRange N) S with
  | mk S' e =>
    rw [hb] at hk
    cases e with
    | none =>
      simp only
      split <;> exact hk
    | some e => exact hk

/-- One iteration either raises, adding no samples, or adds `k` samples with their weights and counts them. -/
theorem body_account (k : ℕ) (t : (Fin d → XF ℝ) → XF ℝ) (it : Iter d) (S : PMC d N) :
    ((body k t it S).2 ≠ none → (body k t it S).1.samples = S.samples ∧ (body k t it S).1.weights = S.weights) ∧
    ((body k t it S).2 = none → ∃ new ws, (body k t it S).1.samples = S.samples ++ new ∧
      (body k t it S).1.weights = S.weights ++ ws ∧ new.length = k ∧ ws.length = k ∧
      (body k t it S).1.numPi = S.numPi + k ∧ (body k t it S).1.numQEval = S.numQEval + k * (1 + N) ∧
      (body k t it S).1.numQ = S.numQ + k) := by
  unfold body
  simp only
  cases hm : mixtureSample N S.modelWeights it.bern (draw { S with numQ := S.numQ + k } it) k with
  | error e => exact ⟨fun _ => ⟨rfl, rfl⟩, fun h => by cases h⟩
  | ok new =>
    have hl := mixtureSample_length _ _ _ _ _ _ hm
    simp only
    obtain ⟨h1, h2, h3, h4, h5⟩ := adapt_keeps (rowsOf t { S with numQ := S.numQ + k } new)
      { S with numQ := S.numQ + k, numPi := S.numPi + k, numQEval := S.numQEval + k * (1 + N) }
    cases ha : adapt (rowsOf t { S with numQ := S.numQ + k } new)
      { S with numQ := S.numQ + k, numPi := S.numPi + k, numQEval := S.numQEval + k * (1 + N) } with
    | mk S' e =>
      rw [ha] at h1 h2 h3 h4 h5
      simp only at h1 h2 h3 h4 h5
      cases e with
      | some e => exact ⟨fun _ => ⟨h1, h2⟩, fun h => by cases h⟩
      | none =>
        refine ⟨fun h => absurd rfl h, fun _ => ⟨new, (rowsOf t { S with numQ := S.numQ + k } new).map Row.w, ?_, ?_, hl, ?_,
          h3, h4, h5⟩⟩
        · simp [h1]
        · simp [h2]
        · simp [rowsOf, hl]

/-- **C82** From any state, a call keeps the earlier samples and weights as a prefix and adds whole batches of `K` samples, one
weight per sample; when it returns or is still running after `r` batches, the target was evaluated `r*K` times, the proposals
`r*K*(1+N)` times and `r*K` points were drawn; it never adds `K` or more beyond what was needed, and if it returns without
having seen a late clock there are at least `n` samples. -/
theorem C82_mpmc (k : ℕ) (t : (Fin d → XF ℝ) → XF ℝ) (n : ℕ) (expired : Bool) (script : List (Iter d)) (S : PMC d N) :
    let out := importanceSample k t n expired script S
    (∃ new ws r, out.state.samples = S.samples ++ new ∧ out.state.weights = S.weights ++ ws ∧ new.length = r * k ∧
      ws.length = r * k ∧ (new ≠ [] → (S.samples ++ new).length < n + k) ∧
      ((∃ S', out = .done S' ∨ out = .running S') → out.state.numPi = S.numPi + r * k ∧
        out.state.numQEval = S.numQEval + r * k * (1 + N) ∧ out.state.numQ = S.numQ + r * k)) ∧
    (∀ S', out = .done S' → expired = false → (∀ it ∈ script, it.late = false) → n ≤ S'.samples.length) := by
  intro out
  constructor
  · have key : ∀ (script : List (Iter d)) (expired : Bool) (s : PMC d N),
        (∃ new ws r, s.samples = S.samples ++ new ∧ s.weights = S.weights ++ ws ∧ new.length = r * k ∧
          ws.length = r * k ∧ (new ≠ [] → (S.samples ++ new).length < n + k) ∧ s.numPi = S.numPi + r * k ∧
          s.numQEval = S.numQEval + r * k * (1 + N) ∧ s.numQ = S.numQ + r * k) →
        ∃ new ws r, (importanceSample k t n expired script s).state.samples = S.samples ++ new ∧
          (importanceSample k t n expired script s).state.weights = S.weights ++ ws ∧ new.length = r * k ∧
          ws.length = r * k ∧ (new ≠ [] → (S.samples ++ new).length < n + k) ∧
          ((∃ S', importanceSample k t n expired script s = .done S' ∨ importanceSample k t n expired script s = .running S') →
            (importanceSample k t n expired script s).state.numPi = S.numPi + r * k ∧
            (importanceSample k t n expired script s).state.numQEval = S.numQEval + r * k * (1 + N) ∧
            (importanceSample k t n expired script s).state.numQ = S.numQ + r * k) := by
      intro script
      induction script with
      | nil =>
        intro expired s hs
        obtain ⟨new, ws, r, h1, h2, h3, h4, h5, h6⟩ := hs
        unfold importanceSample whileScript
        split <;> exact ⟨new, ws, r, h1, h2, h3, h4, h5, fun _ => h6⟩
      | cons it rest ih =>
        intro expired s hs
        obtain ⟨new, ws, r, h1, h2, h3, h4, h5, h6⟩ := hs
        unfold importanceSample whileScript
        by_cases hc : (decide (s.samples.length < n) && !expired) = true
        · rw [if_pos hc]
          have hlt : s.samples.length < n := by simp only [Bool.and_eq_true, decide_eq_true_eq] at hc; exact hc.1
          obtain ⟨hA, hB⟩ := body_account k t it s
          cases hb : body k t it s with
          | mk s1 e =>
            rw [hb] at hA hB
            cases e with
            | none =>
              obtain ⟨new1, ws1, a1, a2, a3, a4, a5, a6, a7⟩ := hB rfl
              simp only at a1 a2 a5 a6 a7
              apply ih it.late s1
              refine ⟨new ++ new1, ws ++ ws1, r + 1, ?_, ?_, ?_, ?_, ?_, ?_, ?_, ?_⟩
              · rw [a1, h1, List.append_assoc]
              · rw [a2, h2, List.append_assoc]
              · simp only [List.length_append, h3, a3]; ring
              · simp only [List.length_append, h4, a4]; ring
              · intro _
                rw [h1] at hlt
                simp only [List.length_append] at hlt ⊢
                omega
              · rw [a5, h6.1]; ring
              · rw [a6, h6.2.1]; ring
              · rw [a7, h6.2.2]; ring
            | some e =>
              obtain ⟨a1, a2⟩ := hA (by simp)
              refine ⟨new, ws, r, a1.trans h1, a2.trans h2, h3, h4, h5, ?_⟩
              rintro ⟨S', h | h⟩ <;> cases h
        · rw [if_neg hc]
          exact ⟨new, ws, r, h1, h2, h3, h4, h5, fun _ => h6⟩
    exact key script expired S ⟨[], [], 0, by simp, by simp, by simp, by simp, by simp, by simp, by simp, by simp⟩
  · intro S' h1 h2 h3
    have := whileScript_done h1 h2 h3
    simpa using this

/-! ### the hypotheses of C43, C45 and C81 are met -/

theorem exBatch : IsBatch [(⟨![0], 1/2, ![1]⟩ : RRow 1 1), ⟨![1], 1/2, ![1]⟩] := by
  constructor
  · constructor
    · intro w hw
      simp at hw
      rw [hw]; norm_num
    · norm_num
  · intro r hr
    simp only [List.mem_cons, List.not_mem_nil, or_false] at hr
    rcases hr with rfl | rfl <;> simp

/-- C43: `adapt` succeeds on two points of the line. -/
example (S : PMC 1 1) : ∃ S', adapt ([(⟨![0], 1/2, ![1]⟩ : RRow 1 1), ⟨![1], 1/2, ![1]⟩].map RRow.up) S = (S', none) := by
  rcases adapt_eq _ _ (computes_updOf exBatch) S with ⟨-, w, -, h⟩ | ⟨⟨n, h⟩, -⟩
  · exact ⟨_, h⟩
  · exfalso
    have hn : n = 0 := Subsingleton.elim _ _
    subst hn
    have hal : ¬ rAlpha [(⟨![0], 1/2, ![1]⟩ : RRow 1 1), ⟨![1], 1/2, ![1]⟩] 0 = 0 := by simp [rAlpha]
    apply h
    simp only [updOf, hal, if_false]
    apply det_one
    simp only [scatter, Matrix.of_apply, List.map_cons, List.map_nil, List.sum_cons, List.sum_nil, Matrix.cons_val_zero]
    generalize rMean (d := 1) (N := 1) _ 0 0 = m
    nlinarith [sq_nonneg (2 * m - 1)]

/-- A batch of two points in the plane, two components. -/
example : IsBatch [(⟨![0, 1], 1/4, ![1/3, 2/3]⟩ : RRow 2 2), ⟨![1, 0], 3/4, ![1/2, 1/2]⟩] := by
  constructor
  · constructor
    · intro w hw
      simp at hw
      rcases hw with rfl | rfl <;> norm_num
    · norm_num
  · intro r hr
    simp only [List.mem_cons, List.not_mem_nil, or_false] at hr
    rcases hr with rfl | rfl <;> refine ⟨?_, by norm_num [Fin.sum_univ_two]⟩ <;> intro n <;> fin_cases n <;> norm_num

end PMC
end Verif
