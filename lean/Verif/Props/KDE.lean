import Verif.Model.KDE
import Verif.Props.GMM
import Verif.Spec.MH
import Verif.Spec.Rejection
import Verif.Spec.Nested
import Verif.Props.Nested
import Verif.Props.MultiNestedRun
import Verif.Props.MHRun
import Verif.Props.LAISInvariant

/-!
# Property C85: the density a sampler reports after a call
-/

set_option linter.unusedSectionVars false
set_option autoImplicit false

namespace Verif
namespace KDE

open Matrix MeasureTheory

variable {d : ℕ}

/-! ### Specification -/

/-- Kernel density estimate: the average of the normal densities with variance `bw` in every coordinate around the
nodes. -/
noncomputable def estimate (bw : ℝ) (nodes : List (Fin d → ℝ)) (x : Fin d → ℝ) : ℝ :=
  (nodes.map fun c => gaussDiag c (fun _ => bw) x).sum / nodes.length

/-- `prob` and `log_prob` (as functions of the batch) report the function `g`, a positive density with total mass one. -/
structure Reports (prob logProb : List (Fin d → ℝ) → Except PyErr (List (XF ℝ))) (g : (Fin d → ℝ) → ℝ) : Prop where
  prob : ∀ data, prob data = .ok (data.map fun x => .fin (g x))
  log : ∀ data, logProb data = .ok (data.map fun x => .fin (Real.log (g x)))
  pos : ∀ x, 0 < g x
  int : Integrable g
  one : ∫ x, g x = 1

/-! ### Proof -/

theorem zip_replicate {α β : Type*} (l : List α) (b : β) : List.zip l (List.replicate l.length b) = l.map fun a => (a, b) := by
  induction l with
  | nil => rfl
  | cons a l ih => simp [List.replicate_succ, ih]

theorem mixture_gmm {bw : ℝ} (hb : 0 < bw) {nodes : List (Fin d → ℝ)} (hne : nodes ≠ []) (sup : (Fin d → ℝ) × (Fin d → ℝ)) :
    mixture bw nodes = (GMM.mk' nodes (List.replicate nodes.length fun _ => bw) none sup).map GMM.gmm := by
  rw [gmm_mk nodes _ hne (by simp) (by simp [List.mem_replicate, hb])]
  unfold mixture
  rw [mapM_except_ok _ (fun x => diagNormal (x, fun _ => 1 * bw)) _ (fun x _ => diag_mk (by simp [hb])), zip_replicate]
  simp only [List.map_map, Option.getD_none, Function.comp_def, one_mul]
  generalize Mixture.mk' _ _ = o
  cases o <;> rfl

theorem gaussMix_uniform (bw : ℝ) (nodes : List (Fin d → ℝ)) (x : Fin d → ℝ) :
    gaussMix nodes (List.replicate nodes.length fun _ => bw) (List.replicate nodes.length (1 / (nodes.length : ℝ))) x =
      estimate bw nodes x := by
  unfold gaussMix estimate
  rw [zip_replicate, List.zipWith_map_left]
  generalize (nodes.length : ℝ) = n
  induction nodes with
  | nil => simp
  | cons a l ih =>
    simp only [List.length_cons, List.replicate_succ, List.zipWith_cons_cons, List.sum_cons, List.map_cons]
    rw [ih]
    ring

/-- The mixture over given nodes. -/
theorem mixture_spec {bw : ℝ} (hb : 0 < bw) {nodes : List (Fin d → ℝ)} (hne : nodes ≠ []) :
    ∃ m, mixture bw nodes = .ok m ∧
      Reports (fun data => .ok (m.prob data)) (fun data => .ok (m.logProb data)) (estimate bw nodes) := by
  obtain ⟨g, w, hg, -, -, hw, -, hp, hl, h0, hi, h1⟩ := C91_gmm_density nodes (List.replicate nodes.length fun _ => bw) hne
    (by simp) (by simp [List.mem_replicate, hb]) none (by simp) (0, 0)
  have hw := hw rfl
  subst hw
  have e : gaussMix nodes (List.replicate nodes.length fun _ => bw) (List.replicate nodes.length (1 / (nodes.length : ℝ))) =
      estimate bw nodes := funext fun x => gaussMix_uniform bw nodes x
  rw [e] at hi h1
  refine ⟨g.gmm, by rw [mixture_gmm hb hne (0, 0), hg]; rfl, ?_, ?_, ?_, hi, h1⟩
  · intro data
    rw [show g.gmm.prob data = g.prob data from rfl, hp]
    simp only [gaussMix_uniform]
  · intro data
    rw [show g.gmm.logProb data = g.logProb data from rfl, hl]
    simp only [gaussMix_uniform]
  · intro x
    rw [← gaussMix_uniform]
    exact h0 x

theorem updateModel_spec {nKde : ℕ} {idx : ℕ → ℕ} {xs m : List (Fin d → ℝ)} (h : MHast.updateModel nKde idx xs = .ok m) :
    m ≠ [] ∧ m.length = nKde ∧ (∀ c ∈ m, c ∈ xs) ∧ ∀ j, j < nKde → m[j]? = xs[idx j % xs.length]? := by
  unfold MHast.updateModel at h
  split at h
  · simp at h
  rename_i hx
  split at h
  · simp at h
  rename_i hk
  injection h with h
  subst h
  have hlt : ∀ j, idx j % xs.length < xs.length := fun j => Nat.mod_lt _ (List.length_pos_of_ne_nil hx)
  refine ⟨by simp [hk], by simp, ?_, ?_⟩
  · intro c hc
    obtain ⟨j, -, rfl⟩ := List.mem_map.1 hc
    rw [List.getElem?_eq_getElem (hlt j)]
    exact List.getElem_mem _
  · intro j hj
    rw [List.getElem?_map, List.getElem?_range hj, Option.map_some, List.getElem?_eq_getElem (hlt j)]
    rfl

theorem stored_spec {bw : ℝ} (hb : 0 < bw) {nKde : ℕ} {idx idx' : ℕ → ℕ} {xs m : List (Fin d → ℝ)}
    (h : MHast.updateModel nKde idx xs = .ok m) :
    ∃ nodes, nodes.length = nKde ∧ (∀ c ∈ nodes, c ∈ xs) ∧ (∀ j, j < nKde → nodes[j]? = xs[idx j % xs.length]?) ∧
      Reports (prob bw nKde idx' xs (some m)) (logProb bw nKde idx' xs (some m)) (estimate bw nodes) := by
  obtain ⟨hne, hl, hm, hj⟩ := updateModel_spec h
  obtain ⟨M, hM, r⟩ := mixture_spec hb hne
  refine ⟨m, hl, hm, hj, ?_, ?_, r.pos, r.int, r.one⟩
  · intro data
    rw [← r.prob, prob, model, hM]
    rfl
  · intro data
    rw [← r.log, logProb, model, hM]
    rfl

/-! ### C85 -/

/-- **C85**, Metropolis-Hastings: after `importance_sample` returned, `prob` and `log_prob` of the sampler report the kernel
density estimate over `n_samples_kde` of the returned samples, the `j`-th of which is the sample at the `j`-th random
index. It is positive everywhere and has total mass one. -/
theorem C85_mh {bw : ℝ} (hb : 0 < bw) (c : MHast.Cfg d) (n : ℕ) (expired : Bool) (script : List (MHast.Iter d))
    (idx idx' : ℕ → ℕ) (S S' : MHast.MH d) (h : MHast.importanceSample c n expired script idx S = .done S') :
    ∃ nodes, nodes.length = c.nKde ∧ (∀ x ∈ nodes, x ∈ S'.samples) ∧
      (∀ j, j < c.nKde → nodes[j]? = S'.samples[idx j % S'.samples.length]?) ∧
      Reports (prob bw c.nKde idx' S'.samples S'.kde) (logProb bw c.nKde idx' S'.samples S'.kde) (estimate bw nodes) := by
  unfold MHast.importanceSample at h
  split at h
  · cases h
  · cases h
  · rename_i S1 _
    simp only at h
    split at h
    · cases h
    · rename_i m hu
      injection h with h
      subst h
      exact stored_spec hb hu

/-- **C85**, nested sampling. -/
theorem C85_nested {bw : ℝ} (hb : 0 < bw) (c : Nested.Cfg d) (n : ℕ) (env : ℕ → Nested.Env d) (idx idx' : ℕ → ℕ)
    (S S' : Nested.Nest d) (h : Nested.importanceSample c n env idx S = .done S') :
    ∃ nodes, nodes.length = c.nKde ∧ (∀ x ∈ nodes, x ∈ S'.samples) ∧
      (∀ j, j < c.nKde → nodes[j]? = S'.samples[idx j % S'.samples.length]?) ∧
      Reports (prob bw c.nKde idx' S'.samples S'.kde) (logProb bw c.nKde idx' S'.samples S'.kde) (estimate bw nodes) := by
  unfold Nested.importanceSample at h
  split at h
  · cases h
  · cases h
  · rename_i p _
    split at h
    · cases h
    simp only at h
    split at h
    · cases h
    · rename_i m hu
      injection h with h
      subst h
      exact stored_spec hb hu

/-- **C85**, multi-nested sampling. -/
theorem C85_multinested {bw : ℝ} (hb : 0 < bw) (c : MultiNested.Cfg d) (n : ℕ) (km : ℕ → ℕ → ℕ) (fuel : ℕ)
    (env : ℕ → MultiNested.Env d) (idx idx' : ℕ → ℕ) (S S' : Nested.Nest d)
    (h : MultiNested.importanceSample c n km fuel env idx S = .done S') :
    ∃ nodes, nodes.length = c.nKde ∧ (∀ x ∈ nodes, x ∈ S'.samples) ∧
      (∀ j, j < c.nKde → nodes[j]? = S'.samples[idx j % S'.samples.length]?) ∧
      Reports (prob bw c.nKde idx' S'.samples S'.kde) (logProb bw c.nKde idx' S'.samples S'.kde) (estimate bw nodes) := by
  unfold MultiNested.importanceSample at h
  simp only at h
  split at h
  · cases h
  · cases h
  split at h
  · cases h
  · cases h
  · rename_i p _
    split at h
    · cases h
    split at h
    · cases h
    · rename_i m hu
      injection h with h
      subst h
      exact stored_spec hb hu

/-- **C85**, rejection sampling, the part that holds: `log_prob` reports the logarithm of a kernel density estimate. -/
theorem C85_rejection_partial {bw : ℝ} (hb : 0 < bw) (c : Rejection.Cfg d) (n : ℕ) (expired : Bool)
    (script : List (Rejection.Iter d)) (idx idx' : ℕ → ℕ) (S S' : Rejection.Rej d)
    (h : Rejection.importanceSample c n expired script idx S = .done S') :
    ∃ nodes, nodes.length = c.nKde ∧ (∀ x ∈ nodes, x ∈ S'.samples) ∧
      (∀ j, j < c.nKde → nodes[j]? = S'.samples[idx j % S'.samples.length]?) ∧
      (∀ data, logProb bw c.nKde idx' S'.samples S'.kde data =
        .ok (data.map fun x => .fin (Real.log (estimate bw nodes x)))) ∧
      (∀ x, 0 < estimate bw nodes x) ∧ ∫ x, estimate bw nodes x = 1 := by
  unfold Rejection.importanceSample at h
  split at h
  · cases h
  · cases h
  · rename_i S1 _
    simp only at h
    split at h
    · cases h
    · rename_i m hu
      injection h with h
      subst h
      obtain ⟨nodes, h1, h2, h3, r⟩ := stored_spec hb (idx' := idx') hu
      exact ⟨nodes, h1, h2, h3, r.log, r.pos, r.one⟩

/-- Without samples there is nothing to estimate from: `prob` and `log_prob` raise ValueError. -/
theorem C85_no_samples (bw : ℝ) (nKde : ℕ) (idx : ℕ → ℕ) (data : List (Fin d → ℝ)) :
    prob bw nKde idx [] none data = .error .value ∧ logProb bw nKde idx [] none data = .error .value := by
  simp [prob, logProb, model, MHast.updateModel, Except.map]

/-- The uniform density on `(0, 1)` as proposal and target, scaled by 3. -/
noncomputable def rejCfg : Rejection.Cfg 1 := Rejection.densCfg (LAIS.box1 0 1) (LAIS.box1 0 1) 3 1

/-- **C85** is violated by rejection sampling: `prob` reports the envelope `scaling * proposal`, here of mass 3, which is
zero at a point where the reported `log_prob` is finite. -/
theorem C85_refuted : ∃ (c : Rejection.Cfg 1) (script : List (Rejection.Iter 1)) (S' : Rejection.Rej 1) (g : (Fin 1 → ℝ) → ℝ),
    Rejection.importanceSample c 1 false script (fun _ => 0) Rejection.init = .done S' ∧ S'.samples = [fun _ => 1/2] ∧
    (∀ x, Rejection.prob c x = .fin (g x)) ∧ ∫⁻ x, ENNReal.ofReal (g x) = 3 ∧
    ∀ bw : ℝ, 0 < bw → ∃ x l, g x = 0 ∧ logProb bw c.nKde (fun _ => 0) S'.samples S'.kde [x] = .ok [.fin l] := by
  have hacc : Rejection.accepts rejCfg (fun _ => 1/2) 0 = true := by
    simp only [Rejection.accepts, Rejection.ratio, rejCfg, Rejection.densCfg, XF.fin_mul]
    have : LAIS.box1 0 1 (fun _ : Fin 1 => (1/2 : ℝ)) = 1 := by
      unfold LAIS.box1
      norm_num
    rw [this, XF.fin_div_ne _ _ (by norm_num)]
    simp [XF.ltb]
  have hrun : ∃ S', Rejection.importanceSample rejCfg 1 false [⟨fun _ _ => 1/2, fun _ => 0, false⟩] (fun _ => 0)
      Rejection.init = .done S' ∧ S'.samples = [fun _ => 1/2] := by
    have hk : rejCfg.nKde = 1 := rfl
    have r1 : List.range 1 = [0] := rfl
    simp only [one_div] at hacc
    simp [Rejection.importanceSample, whileScript, Rejection.body, Rejection.init, MHast.updateModel, hk, r1, hacc]
  obtain ⟨S', h1, h2⟩ := hrun
  refine ⟨rejCfg, _, S', fun x => LAIS.box1 0 1 x * 3, h1, h2, ?_, ?_, ?_⟩
  · intro x
    simp [Rejection.prob, rejCfg, Rejection.densCfg]
  · have hd := LAIS.box1_density (a := 0) (b := 1) one_pos
    simp only [mul_comm _ (3:ℝ), ENNReal.ofReal_mul (show (0:ℝ) ≤ 3 by norm_num)]
    rw [lintegral_const_mul' _ _ ENNReal.ofReal_ne_top, hd.total]
    norm_num
  · intro bw hb
    obtain ⟨nodes, -, -, -, hl, -⟩ := C85_rejection_partial hb _ _ _ _ _ (fun _ => 0) _ _ h1
    refine ⟨fun _ => 5, _, ?_, hl [fun _ => 5]⟩
    unfold LAIS.box1
    norm_num

/-- Calls that meet the hypotheses. -/
example : ∃ (c : Nested.Cfg 1) (n : ℕ) (env : ℕ → Nested.Env 1) (S S' : Nested.Nest 1),
    Nested.importanceSample c n env (fun _ => 0) S = .done S' ∧ S'.samples.length = 2 := by
  obtain ⟨S', h, hs, -⟩ := Nested.ex_run
  exact ⟨_, _, _, _, S', h, by rw [hs]; rfl⟩

example : ∃ (c : MHast.Cfg 1) (script : List (MHast.Iter 1)) (S S' : MHast.MH 1),
    MHast.importanceSample c 1 false script (fun _ => 0) S = .done S' := by
  obtain ⟨c, script, S, S', _, _, h, _⟩ := MHast.C49_refuted
  exact ⟨c, script, S, S', h⟩

example : ∃ m : List (Fin 2 → ℝ), MHast.updateModel 3 (fun j => j + 1) [![0, 0], ![1, 1]] = .ok m ∧
    m = [![1, 1], ![0, 0], ![1, 1]] := by
  refine ⟨_, rfl, ?_⟩
  simp [List.range_succ]

end KDE
end Verif
