import Verif.Model.AIS
import Verif.Proof.Loop
import Verif.Proof.Mixture
import Mathlib.Tactic

/-!
# Lemmas on the population samplers
-/

set_option linter.unusedSectionVars false
set_option autoImplicit false

namespace Verif

variable {K : Type*} [Field K] [LinearOrder K] [IsStrictOrderedRing K] {d : ℕ}

theorem AIS.batch_length (N k : ℕ) (pts : ℕ → ℕ → Fin d → K) : (AIS.batch N k pts).length = N * k := by
  unfold AIS.batch
  rw [List.length_flatMap]
  simp

theorem AIS.mem_batch {N k : ℕ} {pts : ℕ → ℕ → Fin d → K} {x : Fin d → K} :
    x ∈ AIS.batch N k pts ↔ ∃ i < N, ∃ j < k, pts i j = x := by
  unfold AIS.batch
  simp only [List.mem_flatMap, List.mem_range, List.mem_map]

theorem setWeights_uniform (N : ℕ) (hN : 0 < N) :
    setWeights N (List.replicate N (XF.fin (1 / (N : K)))) = .ok (List.replicate N (XF.fin (1 / (N : K)))) := by
  have hn : (0 : K) < N := by exact_mod_cast hN
  have h1 : ∃ x, 0 < x ∧ XF.fin x ∈ List.replicate N (XF.fin (1 / (N : K))) :=
    ⟨1 / N, by positivity, List.mem_replicate.2 ⟨by omega, rfl⟩⟩
  have h2 : XF.pinf ∉ List.replicate N (XF.fin (1 / (N : K))) := by
    intro h
    have := (List.mem_replicate.1 h).2
    cases this
  have := setWeights_eq _ h1 h2
  rw [List.length_replicate] at this
  rw [this]
  congr 1
  have hc : cleanVal (XF.fin (1 / (N : K))) = 1 / N := by
    simp [cleanVal, hN]
  rw [List.map_replicate, List.map_replicate, List.map_replicate, hc, List.sum_replicate, nsmul_eq_mul]
  congr 2
  field_simp

theorem AIS.reset_ok (N : ℕ) (hN : 0 < N) (lo hi : Fin d → K) (u : ℕ → Fin d → K) :
    AIS.reset N lo hi u = .ok ⟨(List.range N).map fun k i => lo i + (hi i - lo i) * u k i,
      List.replicate N (XF.fin (1 / (N : K))), [], [], 0, 0, 0⟩ := by
  unfold AIS.reset
  rw [if_neg (by omega), setWeights_uniform N hN]
  rfl

/-- The mixture density when all component densities are numbers. -/
def mixVal (qv : (Fin d → K) → (Fin d → K) → K) (cs : List (Fin d → K)) (N : ℕ) (x : Fin d → K) : K :=
  (cs.map fun c => qv c x).sum / N

theorem AIS.prob_fin (qv : (Fin d → K) → (Fin d → K) → K) (S : AIS K d) (N : ℕ) (hl : S.centers.length = N)
    (hw : S.modelWeights = List.replicate N (XF.fin (1 / (N : K)))) (x : Fin d → K) :
    S.prob (fun c x => XF.fin (qv c x)) x = XF.fin (mixVal qv S.centers N x) := by
  unfold AIS.prob mixVal
  rw [hw]
  have : List.zipWith (fun c w => XF.fin (qv c x) * w) S.centers (List.replicate N (XF.fin (1 / (N : K))))
      = (S.centers.map fun c => qv c x * (1 / (N : K))).map XF.fin := by
    rw [← hl]
    generalize (S.centers.length : K) = r
    generalize S.centers = l
    induction l with
    | nil => simp
    | cons a l ih =>
      simp only [List.length_cons, List.replicate_succ, List.zipWith_cons_cons, List.map_cons, ih, XF.fin_mul]
  rw [this, XF.sum_map_fin, List.sum_map_mul_right]
  congr 1
  ring

theorem mixVal_pos (qv : (Fin d → K) → (Fin d → K) → K) (hq : ∀ c x, 0 < qv c x) (cs : List (Fin d → K)) (N : ℕ)
    (hN : 0 < N) (hl : cs.length = N) (x : Fin d → K) : 0 < mixVal qv cs N x := by
  unfold mixVal
  apply div_pos _ (by exact_mod_cast hN)
  cases cs with
  | nil => simp at hl; omega
  | cons a l =>
    rw [List.map_cons, List.sum_cons]
    apply add_pos_of_pos_of_nonneg (hq a x)
    apply List.sum_nonneg
    intro y hy
    obtain ⟨c, -, rfl⟩ := List.mem_map.1 hy
    exact (hq c x).le

theorem finites_none_of_nan (l : List (XF K)) (h : XF.nan ∈ l) : finites l = none := by
  induction l with
  | nil => simp at h
  | cons a l ih =>
    cases a with
    | fin x =>
      have : XF.nan ∈ l := by simpa using h
      simp [finites, ih this]
    | pinf => rfl
    | ninf => rfl
    | nan => rfl

/-- The argument check passes for nonnegative weights with positive sum. -/
theorem DM.pvals_ok (ws : List K) (h : ∀ w ∈ ws, 0 ≤ w) (hs : 0 < ws.sum) :
    DM.pvals ((ws.map XF.fin).map fun w => w / (ws.map XF.fin).sum) = .ok (ws.map fun w => w / ws.sum) := by
  have e1 : ((ws.map XF.fin).map fun w => w / (ws.map XF.fin).sum) = (ws.map fun w => w / ws.sum).map XF.fin := by
    rw [XF.sum_map_fin, List.map_map, List.map_map]
    apply List.map_congr_left
    intro w _
    exact XF.fin_div_ne _ _ hs.ne'
  unfold DM.pvals
  rw [e1, finites_map_fin]
  simp only
  have hsum : (ws.map fun w => w / ws.sum).sum = 1 := by
    have := sum_map_div ws (fun w => w) ws.sum
    rw [List.map_id'] at this
    rw [this, div_self hs.ne']
  have hnn : ∀ p ∈ ws.map fun w => w / ws.sum, 0 ≤ p := by
    intro p hp
    obtain ⟨w, hw, rfl⟩ := List.mem_map.1 hp
    exact div_nonneg (h w hw) hs.le
  rw [if_pos]
  refine ⟨?_, ?_, ?_⟩
  · rintro h0
    have := List.map_eq_nil_iff.1 h0
    rw [this] at hs
    simp at hs
  · intro p hp
    exact ⟨hnn p hp, hsum ▸ List.single_le_sum hnn p hp⟩
  · have hd : (ws.map fun w => w / ws.sum).dropLast.sum ≤ (ws.map fun w => w / ws.sum).sum := by
      generalize hl : (ws.map fun w => w / ws.sum) = l at *
      rcases List.eq_nil_or_concat l with rfl | ⟨l', b, rfl⟩
      · simp
      · simp only [List.concat_eq_append, List.dropLast_concat, List.sum_append, List.sum_singleton]
        have := hnn b (by simp)
        linarith
    rw [hsum] at hd
    have : (0 : K) < 1 / 10 ^ 12 := by positivity
    linarith

/-- With weights that are all zero (or none at all) the multinomial draw raises ValueError. -/
theorem DM.pvals_error (ws : List K) (h : ∀ w ∈ ws, w = 0) :
    DM.pvals ((ws.map XF.fin).map fun w => w / (ws.map XF.fin).sum) = .error .value := by
  have hz : (ws.map XF.fin).sum = XF.fin 0 := by
    rw [XF.sum_map_fin]
    congr 1
    exact List.sum_eq_zero h
  unfold DM.pvals
  cases ws with
  | nil => simp [finites]
  | cons a l =>
    have ha := h a (by simp)
    rw [finites_none_of_nan]
    apply List.mem_map.2
    refine ⟨XF.fin a, by simp, ?_⟩
    rw [hz, ha]
    simp [XF.fin_div, XF.infMul]

theorem DM.resample_ok (bern : ℕ → ℕ → K → Bool) (samples : List (Fin d → K)) (ws : List K) (h : ∀ w ∈ ws, 0 ≤ w)
    (hs : 0 < ws.sum) (S : AIS K d) :
    DM.resample bern samples (ws.map XF.fin) S = ({ S with centers := (List.range S.centers.length).map fun i =>
        (samples[argmaxNat (multinomial1 (bern i) (ws.map fun w => w / ws.sum))]?).getD 0 }, none) := by
  unfold DM.resample
  rw [DM.pvals_ok ws h hs]

theorem DM.resample_error (bern : ℕ → ℕ → K → Bool) (samples : List (Fin d → K)) (ws : List K) (h : ∀ w ∈ ws, w = 0)
    (S : AIS K d) : DM.resample bern samples (ws.map XF.fin) S = (S, some .value) := by
  unfold DM.resample
  rw [DM.pvals_error ws h]

theorem sum_pos_or_zero (ws : List K) (h : ∀ w ∈ ws, 0 ≤ w) : 0 < ws.sum ∨ ∀ w ∈ ws, w = 0 := by
  rcases (List.sum_nonneg h).lt_or_eq with h1 | h1
  · exact Or.inl h1
  · right
    intro w hw
    have := List.single_le_sum h w hw
    exact le_antisymm (h1 ▸ this) (h w hw)

theorem norm_sum_one (ws : List K) (hs : ws.sum ≠ 0) :
    ((ws.map XF.fin).map fun w => w / (ws.map XF.fin).sum) = (ws.map fun w => w / ws.sum).map XF.fin ∧
    (ws.map fun w => w / ws.sum).sum = 1 := by
  constructor
  · rw [XF.sum_map_fin, List.map_map, List.map_map]
    apply List.map_congr_left
    intro w _
    exact XF.fin_div_ne _ _ hs
  · have := sum_map_div ws (fun w => w) ws.sum
    rw [List.map_id'] at this
    rw [this, div_self hs]

end Verif
