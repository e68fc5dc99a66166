import Verif.Proof.NestedShare
import Verif.Spec.NestedShare

/-!
# Long runs of nested and multi-nested sampling: C134, C135
-/

set_option linter.unusedSectionVars false
set_option autoImplicit false

namespace Verif
namespace Nested

open Filter

variable {d : ℕ} {c : Cfg d}

/-- What a call that returned leaves behind. -/
theorem done_facts {P : (ℕ → Env d) → Prop} {S S' : Nest d} (hS : Reach c P S) {n : ℕ} {env : ℕ → Env d} (henv : P env)
    {idx : ℕ → ℕ} (h : importanceSample c n env idx S = .done S') :
    S'.weights = finalWeights c.N S'.L ∧ S'.L ≠ [] ∧ 0 < c.N := by
  obtain ⟨-, hne, -⟩ := C54_nested hS henv h
  obtain ⟨-, b2, b3, -⟩ := reach_basic (hS.isDone henv h)
  have hL : S'.L ≠ [] := by
    rw [← List.length_pos_iff, b2]
    exact List.length_pos_iff.2 hne
  exact ⟨((importance_inv (fun _ _ => True) (fun _ _ _ _ _ _ _ _ => trivial) (fun _ _ _ _ _ _ _ _ _ _ _ => trivial)
    trivial).1 S' h).2.1, hL, b3 hL⟩

theorem L_bounds {P : (ℕ → Env d) → Prop} {S : Nest d} (hS : Reach c P S) {m M : ℝ}
    (hb : ∀ x, m ≤ c.target x ∧ c.target x ≤ M) : ∀ l ∈ S.L, m ≤ l ∧ l ≤ M := fun l hl => by
  obtain ⟨x, rfl⟩ := (reach_basic hS).2.2.2 l hl
  exact hb x

/-- **C134** is violated: for a target with values between `m > 0` and `M` the first sample gets at least the share
`m / (m + M)` of the total weight, for every number of live points and of samples, whatever is drawn and whatever the
clock does. -/
theorem C134_refuted {P : (ℕ → Env d) → Prop} {S S' : Nest d} (hS : Reach c P S) {n : ℕ} {env : ℕ → Env d} (henv : P env)
    {idx : ℕ → ℕ} (h : importanceSample c n env idx S = .done S') {m M : ℝ} (hm : 0 < m)
    (hb : ∀ x, m ≤ c.target x ∧ c.target x ≤ M) :
    ∃ w : List ℝ, S'.weights = w.map XF.fin ∧ w.sum = 1 ∧ ∃ h0 : 0 < w.length, m / (m + M) ≤ w[0] := by
  obtain ⟨h1, h2, h3⟩ := done_facts hS henv h
  rw [h1]
  exact first_share h3 h2 hm (L_bounds (hS.isDone henv h) hb)

/-- **C134**, what holds: the share of every sample but the first is at most `M / m` divided by the number of live
points. -/
theorem C134_partial {P : (ℕ → Env d) → Prop} {S S' : Nest d} (hS : Reach c P S) {n : ℕ} {env : ℕ → Env d} (henv : P env)
    {idx : ℕ → ℕ} (h : importanceSample c n env idx S = .done S') {m M : ℝ} (hm : 0 < m)
    (hb : ∀ x, m ≤ c.target x ∧ c.target x ≤ M) :
    ∃ w : List ℝ, S'.weights = w.map XF.fin ∧ w.length = S'.samples.length ∧
      ∀ i (hi : i < w.length), 1 ≤ i → 0 ≤ w[i] ∧ w[i] ≤ M / m / c.N := by
  obtain ⟨h1, h2, h3⟩ := done_facts hS henv h
  rw [h1, ← (reach_basic (hS.isDone henv h)).2.1]
  exact other_share h3 h2 hm (L_bounds (hS.isDone henv h) hb)

theorem Later.reach {P : (ℕ → Env d) → Prop} {S T : Nest d} (hS : Reach c P S) (h : Later c P S T) : Reach c P T := by
  induction h with
  | refl => exact hS
  | call _ hP he ih => exact ih.isDone hP he

theorem Later.pre {P : (ℕ → Env d) → Prop} {S T : Nest d} (hS : Reach c P S) (h : Later c P S T) :
    S.samples <+: T.samples ∧ S.L <+: T.L := by
  induction h with
  | refl => exact ⟨List.prefix_refl _, List.prefix_refl _⟩
  | call h1 hP he ih =>
    obtain ⟨-, -, h2, h3, -⟩ := C54_nested (h1.reach hS) hP he
    exact ⟨ih.1.trans h2, ih.2.trans h3⟩

theorem Later.weights {P : (ℕ → Env d) → Prop} {S T : Nest d} (hS : Reach c P S) (h : Later c P S T)
    (hw : S.weights = finalWeights c.N S.L) : T.weights = finalWeights c.N T.L := by
  cases h with
  | refl => exact hw
  | call h1 hP he => exact (done_facts (h1.reach hS) hP he).1

/-- Averages from the recorded likelihoods, for both samplers. -/
theorem settle_aux {N : ℕ} (hN : 0 < N) {S T : Nest d} (h1 : S.samples <+: T.samples) (h2 : S.L <+: T.L)
    (hS : S.L.length = S.samples.length) (hT : T.L.length = T.samples.length) (hL : S.L ≠ [])
    (wS : S.weights = finalWeights N S.L) (wT : T.weights = finalWeights N T.L) {m M B : ℝ} (hm : 0 < m)
    (hb : ∀ l ∈ T.L, m ≤ l ∧ l ≤ M) {f : (Fin d → ℝ) → ℝ} (hf : ∀ x, |f x| ≤ B) :
    ∃ a a' : ℝ, Average f S a ∧ Average f T a' ∧
      |a' - a| ≤ 2 * B * (M / m) * Real.exp (-((S.samples.length - 1 : ℕ) : ℝ) / N) := by
  obtain ⟨w, w', e1, e2, e3⟩ := settle_list (ys := S.samples.map f) (ys' := T.samples.map f) hN hL h2 (h1.map f) (by simp [hS])
    (by simp [hT]) hm hb (fun y hy => by
      obtain ⟨x, -, rfl⟩ := List.mem_map.1 hy
      exact hf x)
  have l1 : w.length = S.samples.length := by
    have := congrArg List.length e1
    rw [← hS]
    simpa [finalWeights] using this.symm
  have l2 : w'.length = T.samples.length := by
    have := congrArg List.length e2
    rw [← hT]
    simpa [finalWeights] using this.symm
  rw [hS] at e3
  refine ⟨_, _, ⟨w, wS.trans e1, l1, rfl⟩, ⟨w', wT.trans e2, l2, rfl⟩, ?_⟩
  rw [List.zipWith_map_left, List.zipWith_map_left] at e3
  exact e3

theorem Average.unique {f : (Fin d → ℝ) → ℝ} {S : Nest d} {a b : ℝ} (ha : Average f S a) (hb : Average f S b) : a = b := by
  obtain ⟨w, h1, -, rfl⟩ := ha
  obtain ⟨w', h2, -, rfl⟩ := hb
  have : w = w' := by
    have h3 := h1.symm.trans h2
    exact (List.map_injective_iff.2 fun x y h => by cases h; rfl) h3
  rw [this]

/-- **C135**. For a target with values between `m > 0` and `M` and a function bounded by `B`, the average over the samples
a call returns and the average over those of any later calls on the object differ by at most
`2 B (M / m) exp (-(n - 1) / N)`, where `n` is the number of samples of the first and `N` the number of live points;
whatever is drawn and whatever the clock does. -/
theorem C135_nested {P : (ℕ → Env d) → Prop} {S₀ S T : Nest d} (hS : Reach c P S₀) {n : ℕ} {env : ℕ → Env d} (henv : P env)
    {idx : ℕ → ℕ} (h : importanceSample c n env idx S₀ = .done S) (hT : Later c P S T) {m M B : ℝ} (hm : 0 < m)
    (hb : ∀ x, m ≤ c.target x ∧ c.target x ≤ M) {f : (Fin d → ℝ) → ℝ} (hf : ∀ x, |f x| ≤ B) :
    ∃ a a' : ℝ, Average f S a ∧ Average f T a' ∧
      |a' - a| ≤ 2 * B * (M / m) * Real.exp (-((S.samples.length - 1 : ℕ) : ℝ) / c.N) := by
  obtain ⟨h1, h2, h3⟩ := done_facts hS henv h
  have hR := hS.isDone henv h
  obtain ⟨p1, p2⟩ := hT.pre hR
  exact settle_aux h3 p1 p2 (reach_basic hR).2.1 (reach_basic (hT.reach hR)).2.1 h2 h1 (hT.weights hR h1) hm
    (L_bounds (hT.reach hR) hb) hf

/-- From the bound to a limit. -/
theorem limit_aux {N : ℕ} (hN : 0 < N) {S : ℕ → Nest d} {f : (Fin d → ℝ) → ℝ} {C : ℝ}
    (hsize : Tendsto (fun k => (S k).samples.length) atTop atTop)
    (h : ∀ j k, j ≤ k → ∃ a a' : ℝ, Average f (S j) a ∧ Average f (S k) a' ∧
      |a' - a| ≤ C * Real.exp (-(((S j).samples.length - 1 : ℕ) : ℝ) / N)) :
    ∃ l, ∃ avg : ℕ → ℝ, (∀ k, Average f (S k) (avg k)) ∧ Tendsto avg atTop (nhds l) := by
  choose avg avg' h1 h2 h3 using fun k => h k k le_rfl
  have hd : ∀ j k, j ≤ k → |avg k - avg j| ≤ C * Real.exp (-(((S j).samples.length - 1 : ℕ) : ℝ) / N) := fun j k hjk => by
    obtain ⟨a, a', e1, e2, e3⟩ := h j k hjk
    rwa [(h1 j).unique e1, (h1 k).unique e2]
  have hN' : (0 : ℝ) < N := by exact_mod_cast hN
  have h0 : Tendsto (fun j => C * Real.exp (-(((S j).samples.length - 1 : ℕ) : ℝ) / N)) atTop (nhds 0) := by
    rw [← mul_zero C]
    refine Tendsto.const_mul C (Real.tendsto_exp_atBot.comp ?_)
    have t1 : Tendsto (fun j => (((S j).samples.length - 1 : ℕ) : ℝ)) atTop atTop :=
      tendsto_natCast_atTop_atTop.comp ((tendsto_sub_atTop_nat 1).comp hsize)
    exact (tendsto_neg_atTop_atBot.comp t1).atBot_div_const hN'
  have hc : CauchySeq avg := by
    refine cauchySeq_of_le_tendsto_0' _ (fun j k hjk => ?_) h0
    rw [dist_comm, Real.dist_eq]
    exact hd j k hjk
  obtain ⟨l, hl⟩ := cauchySeq_tendsto_of_complete hc
  exact ⟨l, avg, h1, hl⟩

/-- **C135**, in the limit: along any sequence of calls that return more and more samples the averages of a bounded
function converge. -/
theorem C135_limit {P : (ℕ → Env d) → Prop} {S : ℕ → Nest d} (hS : Reach c P (S 0)) {n : ℕ → ℕ} {env : ℕ → ℕ → Env d}
    {idx : ℕ → ℕ → ℕ} (henv : ∀ k, P (env k))
    (h : ∀ k, importanceSample c (n k) (env k) (idx k) (S k) = .done (S (k + 1)))
    (hn : Tendsto n atTop atTop) {m M B : ℝ} (hm : 0 < m)
    (hb : ∀ x, m ≤ c.target x ∧ c.target x ≤ M) {f : (Fin d → ℝ) → ℝ} (hf : ∀ x, |f x| ≤ B) :
    ∃ l, ∃ avg : ℕ → ℝ, (∀ k, Average f (S (k + 1)) (avg k)) ∧ Tendsto avg atTop (nhds l) := by
  have hR : ∀ k, Reach c P (S k) := fun k => by
    induction k with
    | zero => exact hS
    | succ k ih => exact ih.isDone (henv k) (h k)
  have hlater : ∀ j k, Later c P (S j) (S (j + k)) := fun j k => by
    induction k with
    | zero => exact .refl
    | succ k ih => exact ih.call (henv _) (h (j + k))
  refine limit_aux (S := fun k => S (k + 1)) (done_facts (hR 0) (henv 0) (h 0)).2.2 ?_ (fun j k hjk => ?_) (C := 2 * B * (M / m))
  · refine tendsto_atTop_mono (fun k => ?_) hn
    rw [(C54_nested (hR k) (henv k) (h k)).1]
    exact le_max_left _ _
  · obtain ⟨i, rfl⟩ := Nat.exists_eq_add_of_le hjk
    have := hlater (j + 1) i
    rw [show j + 1 + i = j + i + 1 by omega] at this
    exact C135_nested (hR j) (henv j) (h j) this hm hb hf

/-- The hypotheses of the theorems at a run with a target that is not constant. -/
example : ∃ (c : Cfg 1) (S S' : Nest 1) (env : ℕ → Env 1), Reach c NoTimeout S ∧ NoTimeout env ∧
    importanceSample c 1 env (fun _ => 0) S = .done S' ∧ (∀ x, 1 ≤ c.target x ∧ c.target x ≤ 2) ∧
    c.target (fun _ => 0) ≠ c.target fun _ => 1 := by
  have hrun : ∃ S' : Nest 1, importanceSample ⟨![0], ![1], fun x => 1 + min 1 (max 0 (x 0)), 1, 1⟩ 1
      (fun _ => ⟨0, ![1], false, []⟩) (fun _ => 0)
      (reset ⟨![0], ![1], fun x => 1 + min 1 (max 0 (x 0)), 1, 1⟩ fun _ _ => 0) = .done S' := by
    simp [importanceSample, reset, forN, step, resample, whileScript, Nest.samples, addSample, minOf, count, clip,
      MHast.updateModel, List.idxOf, List.findIdx, List.findIdx.go]
    rw [if_neg (by norm_num)]
    exact ⟨_, rfl⟩
  obtain ⟨S', h1⟩ := hrun
  refine ⟨⟨![0], ![1], fun x => 1 + min 1 (max 0 (x 0)), 1, 1⟩, _, S', _, Reach.new _ (by simp), by simp [NoTimeout], h1, ?_, ?_⟩
  · intro x
    have h1 := min_le_left (1 : ℝ) (max 0 (x 0))
    have h2 : (0 : ℝ) ≤ min 1 (max 0 (x 0)) := le_min zero_le_one (le_max_left _ _)
    simp only
    constructor <;> linarith
  · norm_num

end Nested

namespace MultiNested

open Nested (Nest finalWeights first_share other_share settle_aux Average samples_congr)

variable {d : ℕ} {c : Cfg d}

theorem done_facts (hc : Good c) {S S' : Nest d} (hS : Reach c S) {n fuel : ℕ} {km : ℕ → ℕ → ℕ} {env : ℕ → Env d}
    {idx : ℕ → ℕ} (hkm : ∀ k, 0 < k → ∀ p < c.N, km k p < k) (h : importanceSample c n km fuel env idx S = .done S') :
    S'.weights = finalWeights c.N S'.L ∧ S'.L ≠ [] ∧ 0 < c.N ∧ S.samples <+: S'.samples ∧ S.L <+: S'.L := by
  obtain ⟨ells, hcl⟩ := clustering_done h
  obtain ⟨hne, hlt, hg⟩ := clustering_good hc hkm (reach_basic hc hS).1 hcl
  have h1 := (importance_inv (idx := idx) (n := n) (env := env) hcl (fun e he => (hg e he).2) (fun _ T =>
    ∃ new, T.L = S.L ++ new) (by
      rintro j T T' ⟨new, hT⟩ h1 h2 h3 h4
      exact ⟨new, h4.trans hT⟩) (by
      rintro i - T p k x y el - - ⟨new, e1⟩ hs
      exact ⟨new ++ [c.target x], by rw [hs.L, e1, List.append_assoc]⟩) ⟨[], by simp⟩).1 S' h
  obtain ⟨⟨new, e1⟩, -, h2, h3⟩ := h1
  refine ⟨h2, ?_, by have := hc.two; omega, (C58_partial hc hS hkm h).1, ⟨new, e1.symm⟩⟩
  rw [← List.length_pos_iff, (reach_basic hc (hS.isDone hkm h)).2.1]
  exact List.length_pos_iff.2 h3

theorem L_bounds (hc : Good c) {S : Nest d} (hS : Reach c S) {m M : ℝ}
    (hb : ∀ x, m ≤ c.target x ∧ c.target x ≤ M) : ∀ l ∈ S.L, m ≤ l ∧ l ≤ M := fun l hl => by
  obtain ⟨x, rfl⟩ := (reach_basic hc hS).2.2 l hl
  exact hb x

/-- **C134** is violated by multi-nested sampling in the same way. -/
theorem C134_refuted_multi (hc : Good c) {S S' : Nest d} (hS : Reach c S) {n fuel : ℕ} {km : ℕ → ℕ → ℕ} {env : ℕ → Env d}
    {idx : ℕ → ℕ} (hkm : ∀ k, 0 < k → ∀ p < c.N, km k p < k) (h : importanceSample c n km fuel env idx S = .done S')
    {m M : ℝ} (hm : 0 < m) (hb : ∀ x, m ≤ c.target x ∧ c.target x ≤ M) :
    ∃ w : List ℝ, S'.weights = w.map XF.fin ∧ w.sum = 1 ∧ ∃ h0 : 0 < w.length, m / (m + M) ≤ w[0] := by
  obtain ⟨h1, h2, h3, -⟩ := done_facts hc hS hkm h
  rw [h1]
  exact first_share h3 h2 hm (L_bounds hc (hS.isDone hkm h) hb)

/-- **C134**, what holds for multi-nested sampling: the other samples get small shares. -/
theorem C134_partial_multi (hc : Good c) {S S' : Nest d} (hS : Reach c S) {n fuel : ℕ} {km : ℕ → ℕ → ℕ} {env : ℕ → Env d}
    {idx : ℕ → ℕ} (hkm : ∀ k, 0 < k → ∀ p < c.N, km k p < k) (h : importanceSample c n km fuel env idx S = .done S')
    {m M : ℝ} (hm : 0 < m) (hb : ∀ x, m ≤ c.target x ∧ c.target x ≤ M) :
    ∃ w : List ℝ, S'.weights = w.map XF.fin ∧ w.length = S'.samples.length ∧
      ∀ i (hi : i < w.length), 1 ≤ i → 0 ≤ w[i] ∧ w[i] ≤ M / m / c.N := by
  obtain ⟨h1, h2, h3, -⟩ := done_facts hc hS hkm h
  rw [h1, ← (reach_basic hc (hS.isDone hkm h)).2.1]
  exact other_share h3 h2 hm (L_bounds hc (hS.isDone hkm h) hb)

theorem Later.reach {S T : Nest d} (hS : Reach c S) (h : Later c S T) : Reach c T := by
  induction h with
  | refl => exact hS
  | call _ hP he ih => exact ih.isDone hP he

theorem Later.pre (hc : Good c) {S T : Nest d} (hS : Reach c S) (h : Later c S T) :
    S.samples <+: T.samples ∧ S.L <+: T.L := by
  induction h with
  | refl => exact ⟨List.prefix_refl _, List.prefix_refl _⟩
  | call h1 hP he ih =>
    obtain ⟨-, -, -, h2, h3⟩ := done_facts hc (h1.reach hS) hP he
    exact ⟨ih.1.trans h2, ih.2.trans h3⟩

theorem Later.weights (hc : Good c) {S T : Nest d} (hS : Reach c S) (h : Later c S T)
    (hw : S.weights = finalWeights c.N S.L) : T.weights = finalWeights c.N T.L := by
  cases h with
  | refl => exact hw
  | call h1 hP he => exact (done_facts hc (h1.reach hS) hP he).1

/-- **C135** for multi-nested sampling. -/
theorem C135_multi (hc : Good c) {S₀ S T : Nest d} (hS : Reach c S₀) {n fuel : ℕ} {km : ℕ → ℕ → ℕ} {env : ℕ → Env d}
    {idx : ℕ → ℕ} (hkm : ∀ k, 0 < k → ∀ p < c.N, km k p < k) (h : importanceSample c n km fuel env idx S₀ = .done S)
    (hT : Later c S T) {m M B : ℝ} (hm : 0 < m) (hb : ∀ x, m ≤ c.target x ∧ c.target x ≤ M) {f : (Fin d → ℝ) → ℝ}
    (hf : ∀ x, |f x| ≤ B) :
    ∃ a a' : ℝ, Average f S a ∧ Average f T a' ∧
      |a' - a| ≤ 2 * B * (M / m) * Real.exp (-((S.samples.length - 1 : ℕ) : ℝ) / c.N) := by
  obtain ⟨h1, h2, h3, -⟩ := done_facts hc hS hkm h
  have hR := hS.isDone hkm h
  obtain ⟨p1, p2⟩ := hT.pre hc hR
  exact settle_aux h3 p1 p2 (reach_basic hc hR).2.1 (reach_basic hc (hT.reach hR)).2.1 h2 h1 (hT.weights hc hR h1) hm
    (L_bounds hc (hT.reach hR) hb) hf

/-- The clusters do not depend on the target. -/
theorem clustering_target (t : (Fin d → ℝ) → ℝ) (km : ℕ → ℕ → ℕ) (fuel : ℕ) (pts : List (Fin d → ℝ)) :
    recursiveClustering { c with target := t } km fuel pts = recursiveClustering c km fuel pts := by
  have h1 : ∀ k i, fitAll { c with target := t } km pts k i = fitAll c km pts k i := fun k i => by
    induction i with
    | zero => rfl
    | succ i ih => simp only [fitAll, ih]
  have h2 : ∀ es, clustering { c with target := t } km pts fuel es = clustering c km pts fuel es := fun es => by
    induction fuel generalizing es with
    | zero => rfl
    | succ n ih => simp only [clustering, ih, h1]
  simp only [recursiveClustering, h2]

/-- The run `ex_run` with a target that has values between 1 and 12. -/
noncomputable def exCfgB : Cfg 1 := { exCfg with target := fun x => max 1 (min 12 (12 - x 0)) }

/-- The hypotheses of the theorems on multi-nested sampling at a call that returns two samples. -/
example : ∃ S' : Nest 1, Good exCfgB ∧ Reach exCfgB (reset exCfgB exUs) ∧
    (∀ k, 0 < k → ∀ p < exCfgB.N, exKm k p < k) ∧
    importanceSample exCfgB 3 exKm 3 (fun _ => ⟨![0], false, []⟩) (fun _ => 0) (reset exCfgB exUs) = .done S' ∧
    S'.samples = [![0], ![11]] ∧ S'.L = [11, 1] ∧ ∀ x, 1 ≤ exCfgB.target x ∧ exCfgB.target x ≤ 12 := by
  have hg : Good exCfgB := ⟨ex_good.1, ex_good.2, ex_good.3, ex_good.4⟩
  have hcl : recursiveClustering exCfgB exKm 3 exLive =
      some (.ok [⟨![1 / 2], sphereVol 1, [0, 1]⟩, ⟨![21 / 2], sphereVol 1, [2, 3]⟩]) := (clustering_target _ _ _ _).trans ex_clustering
  have hr : reset exCfgB exUs = ⟨exLive, [], none, [], [], none, 0, 0, 0⟩ := by
    have : (List.ofFn fun (k : Fin 4) (i : Fin 1) => exUs k i * (exCfgB.hi i - exCfgB.lo i) + exCfgB.lo i) = exLive := by
      simp only [List.ofFn_succ, List.ofFn_zero, exLive]
      congr 1
      · funext i; fin_cases i; simp [exUs, exCfgB, exCfg]
      congr 1
      · funext i; fin_cases i; simp [exUs, exCfgB, exCfg]
      congr 1
      · funext i; fin_cases i
        show (10 / 16 : ℝ) * (16 - 0) + 0 = 10
        norm_num
      congr 1
      · funext i; fin_cases i
        show (11 / 16 : ℝ) * (16 - 0) + 0 = 11
        norm_num
    unfold reset
    exact congrArg (fun l => (⟨l, [], none, [], [], none, 0, 0, 0⟩ : Nest 1)) this
  have c1 : clip ![(0 : ℝ)] ![16] ![0] = ![0] := by funext i; fin_cases i; simp [clip]
  have b1 : ((12 : ℝ) == 11) = false := beq_eq_false_iff_ne.2 (by norm_num)
  have b2 : ((2 : ℝ) == 1) = false := beq_eq_false_iff_ne.2 (by norm_num)
  have ht : exLive.map exCfgB.target = [12, 11, 2, 1] := by norm_num [exLive, exCfgB, exCfg]
  have s0 : ∀ l v, step exCfgB ⟨l, v, [0, 1]⟩ ⟨![0], false, []⟩
      (⟨exLive, [], none, [], [], none, 4, 0, 0⟩, [12, 11, 2, 1]) =
      .done (⟨[![0], ![0], ![10], ![11]], [], some 1, [11], [], none, 5, 0, 1⟩, [12, 12, 2, 1]) := by
    intro l v
    norm_num [step, exCfgB, exCfg, exLive, resample, whileScript, Nest.samples, Nested.addSample, Nested.minOf, Nested.count,
      List.idxOf, List.findIdx, List.findIdx.go, c1, b1, b2]
  have s1 : ∀ l v, step exCfgB ⟨l, v, [2, 3]⟩ ⟨![0], false, []⟩
      (⟨[![0], ![0], ![10], ![11]], [], some 1, [11], [], none, 5, 0, 1⟩, [12, 12, 2, 1]) =
      .done (⟨[![0], ![0], ![10], ![0]], [![0], ![11]], none, [11, 1], [], none, 6, 0, 2⟩, [12, 12, 2, 12]) := by
    intro l v
    norm_num [step, exCfgB, exCfg, resample, whileScript, Nest.samples, Nested.addSample, Nested.minOf, Nested.count,
      List.idxOf, List.findIdx, List.findIdx.go, c1, b1, b2]
  have hrun : ∃ S' : Nest 1, importanceSample exCfgB 3 exKm 3 (fun _ => ⟨![0], false, []⟩) (fun _ => 0)
      (reset exCfgB exUs) = .done S' ∧ S'.samples = [![0], ![11]] ∧ S'.L = [11, 1] := by
    rw [hr]
    have hlen : exLive.length = 4 := rfl
    simp [importanceSample, hcl, perEll, forN, s0, s1, Nest.samples, ht, hlen, MHast.updateModel]
    simp [exCfgB, exCfg]
  obtain ⟨S', h1, h2, h3⟩ := hrun
  refine ⟨S', hg, Reach.new _ ex_us, ex_km, h1, h2, h3, fun x => ?_⟩
  have h4 := le_max_left (1 : ℝ) (min 12 (12 - x 0))
  have h5 : max (1 : ℝ) (min 12 (12 - x 0)) ≤ 12 := max_le (by norm_num) (min_le_left _ _)
  exact ⟨h4, h5⟩

end MultiNested
end Verif
