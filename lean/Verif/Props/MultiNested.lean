import Verif.Model.MultiNested
import Verif.Props.Nested
import Mathlib.LinearAlgebra.Matrix.Determinant.Basic

/-!
# Multi-nested sampling: C57, C58, C88
-/

set_option linter.unusedSectionVars false
set_option autoImplicit false

namespace Verif
namespace MultiNested

open Nested (Nest addSample minOf finalWeights count getD_lt)

variable {d : ℕ} {c : Cfg d}

theorem sphereVol_pos (hd : 0 < d) : 0 < sphereVol d := by
  have h : (0 : ℝ) < d := by exact_mod_cast hd
  have h1 : 0 < Real.Gamma ((d : ℝ) / 2) := Real.Gamma_pos_of_pos (by positivity)
  unfold sphereVol
  have := Real.pi_pos
  positivity

theorem mkEll_ok (hd : 0 < d) {loc : Fin d → ℝ} {M : Matrix (Fin d) (Fin d) ℝ} {idx : List ℕ} (h : 0 < M.det) :
    ∃ e, mkEll loc M idx = .ok e ∧ e.idx = idx ∧ 0 < e.vol := by
  unfold mkEll
  rw [if_neg (not_le.2 h)]
  exact ⟨_, rfl, rfl, mul_pos (sphereVol_pos hd) h⟩

/-- `fit` succeeds on every set of at least `d` points. -/
theorem fit_ok (hd : 0 < d) {inflate : ℝ} (hi : 0 < inflate) {pts : List (Fin d → ℝ)} {idx : List ℕ} (h : d ≤ pts.length) :
    ∃ e, fit inflate pts idx = .ok e ∧ e.idx = idx ∧ 0 < e.vol := by
  have hdiag : ∀ a : ℝ, 0 < a → 0 < (Matrix.diagonal fun _ : Fin d => a).det := by
    intro a ha
    rw [Matrix.det_diagonal]
    exact Finset.prod_pos fun _ _ => ha
  unfold fit
  rw [if_neg (not_lt.2 h)]
  split
  · split
    · exact mkEll_ok hd (hdiag _ hi)
    · rename_i hc
      refine mkEll_ok hd ?_
      rw [Matrix.det_smul]
      exact mul_pos (pow_pos hi _) (not_le.1 hc)
  · split
    · exact mkEll_ok hd (hdiag _ hi)
    · rename_i hc
      exact mkEll_ok hd (hdiag _ (mul_pos (not_le.1 hc) hi))

/-- Every position below `N` is in exactly one of the ellipsoids. -/
def Partition (N : ℕ) (ells : List (Ell d)) : Prop :=
  ∀ p < N, ∃ j : ℕ, (∃ e : Ell d, ells[j]? = some e ∧ p ∈ e.idx) ∧ ∀ (j' : ℕ) (e' : Ell d), ells[j']? = some e' → p ∈ e'.idx → j' = j

theorem fitAll_ok (hd : 0 < d) (hi : 0 < c.inflate) (km : ℕ → ℕ → ℕ) (pts : List (Fin d → ℝ)) (k : ℕ)
    (hk : ∀ i < k, d + 1 ≤ (cluster km k pts.length i).length) : ∀ i ≤ k,
    ∃ es, fitAll c km pts k i = .ok es ∧ es.length = i ∧ ∀ j < i, ∃ e, es[j]? = some e ∧ e.idx = cluster km k pts.length j ∧ 0 < e.vol
  | 0, _ => ⟨[], rfl, rfl, fun j hj => by omega⟩
  | i + 1, hik => by
    obtain ⟨es, h1, h2, h3⟩ := fitAll_ok hd hi km pts k hk i (by omega)
    obtain ⟨e, h4, h5, h6⟩ := fit_ok hd hi (pts := (cluster km k pts.length i).map fun p => pts.getD p 0)
      (idx := cluster km k pts.length i) (by rw [List.length_map]; have := hk i (by omega); omega)
    refine ⟨es ++ [e], by simp only [fitAll, h1, h4], by simp [h2], ?_⟩
    intro j hj
    by_cases hji : j < i
    · obtain ⟨e', h7, h8⟩ := h3 j hji
      exact ⟨e', by rw [List.getElem?_append_left (by omega)]; exact h7, h8⟩
    · have : j = i := by omega
      subst this
      refine ⟨e, ?_, h5, h6⟩
      rw [List.getElem?_append_right (by omega)]
      simp [h2]

theorem cluster_count (f : ℕ → ℕ) (k : ℕ) (l : List ℕ) :
    ∑ i ∈ Finset.range k, (l.filter fun p => f p == i).length ≤ l.length := by
  induction l with
  | nil => simp
  | cons a l ih =>
    have : ∀ i, ((a :: l).filter fun p => f p == i).length = (if f a = i then 1 else 0) + (l.filter fun p => f p == i).length := by
      intro i
      by_cases h : f a = i
      · simp [h]; omega
      · simp [h]
    simp only [this, Finset.sum_add_distrib, List.length_cons, Finset.sum_ite_eq]
    split <;> omega

theorem clusters_fit (km : ℕ → ℕ → ℕ) (k N m : ℕ) (h : ∀ i < k, m ≤ (cluster km k N i).length) : k * m ≤ N := by
  have h1 := cluster_count (km k) k (List.range N)
  rw [List.length_range] at h1
  refine le_trans ?_ h1
  calc k * m = ∑ i ∈ Finset.range k, m := by simp
    _ ≤ _ := Finset.sum_le_sum fun i hi => h i (Finset.mem_range.1 hi)

/-- Every ellipsoid contains at least one position. -/
structure GoodElls (N : ℕ) (ells : List (Ell d)) : Prop where
  part : Partition N ells
  lt : ∀ e ∈ ells, ∀ p ∈ e.idx, p < N
  ne : ∀ e ∈ ells, e.idx ≠ []
  pos : ells ≠ []

theorem clustering_spec (hd : 0 < d) (hi : 0 < c.inflate) (km : ℕ → ℕ → ℕ) (pts : List (Fin d → ℝ))
    (hkm : ∀ k, ∀ p < pts.length, km k p < k ∨ k = 0) : ∀ (fuel : ℕ) (ells : List (Ell d)), GoodElls pts.length ells →
    ells.length + 1 ≤ pts.length → pts.length ≤ fuel + ells.length →
    ∃ es, clustering c km pts fuel ells = some (.ok es) ∧ GoodElls pts.length es ∧ ells.length ≤ es.length ∧ es.length + 1 ≤ pts.length
  | 0, ells, _, h1, h2 => by omega
  | fuel + 1, ells, hg, h1, h2 => by
    simp only [clustering]
    rw [if_neg (by omega)]
    split
    · exact ⟨ells, rfl, hg, le_refl _, h1⟩
    · rename_i hany
      have hsz : ∀ i < ells.length + 1, d + 1 ≤ (cluster km (ells.length + 1) pts.length i).length := by
        intro i hi
        by_contra hc
        apply hany
        rw [List.any_eq_true]
        exact ⟨i, List.mem_range.2 hi, by simp; omega⟩
      obtain ⟨es, e1, e2, e3⟩ := fitAll_ok (c := c) hd hi km pts (ells.length + 1) hsz (ells.length + 1) le_rfl
      rw [e1]
      simp only
      split
      · exact ⟨ells, rfl, hg, le_refl _, h1⟩
      · split
        · exact ⟨ells, rfl, hg, le_refl _, h1⟩
        · have hcount := clusters_fit km (ells.length + 1) pts.length (d + 1) hsz
          have hmem : ∀ e ∈ es, ∃ j < ells.length + 1, es[j]? = some e ∧ e.idx = cluster km (ells.length + 1) pts.length j := by
            intro e he
            obtain ⟨j, hj, rfl⟩ := List.mem_iff_getElem.1 he
            obtain ⟨e', h5, h6, -⟩ := e3 j (by omega)
            rw [List.getElem?_eq_getElem hj] at h5
            cases h5
            exact ⟨j, by omega, List.getElem?_eq_getElem hj, h6⟩
          have hg' : GoodElls pts.length es := by
            refine ⟨?_, ?_, ?_, ?_⟩
            · intro p hp
              have hlab : km (ells.length + 1) p < ells.length + 1 := by
                rcases hkm (ells.length + 1) p hp with h | h <;> omega
              obtain ⟨e, h5, h6, -⟩ := e3 _ hlab
              refine ⟨_, ⟨e, h5, ?_⟩, ?_⟩
              · rw [h6]
                simp [cluster, hp]
              · intro j' e' h7 h8
                obtain ⟨j, hj, h9, h10⟩ := hmem e' (List.mem_of_getElem? h7)
                have hj' : j' < es.length := by
                  by_contra hc
                  rw [List.getElem?_eq_none (by omega)] at h7
                  cases h7
                obtain ⟨e'', h11, h12, -⟩ := e3 j' (by omega)
                rw [h7] at h11
                cases h11
                rw [h12] at h8
                simp [cluster] at h8
                exact h8.2.symm
            · intro e he p hp
              obtain ⟨j, -, -, h10⟩ := hmem e he
              rw [h10] at hp
              simp [cluster] at hp
              exact hp.1
            · intro e he h0
              obtain ⟨j, hj, -, h10⟩ := hmem e he
              have := hsz j hj
              rw [← h10, h0] at this
              simp at this
            · intro h0
              rw [h0] at e2
              simp at e2
          have hlen : es.length + 1 ≤ pts.length := by
            rw [e2]
            nlinarith
          obtain ⟨es', f1, f2, f3, f4⟩ := clustering_spec hd hi km pts hkm fuel es hg' hlen (by omega)
          exact ⟨es', f1, f2, by omega, f4⟩

/-- **C57**. For every set of at least two (and at least `d`) live points and whatever labels below the number of
clusters KMeans returns, the clustering ends after fewer than `N` recursive calls without an exception; every live point
belongs to exactly one of the ellipsoids, and no ellipsoid is empty. -/
theorem C57_clustering (hd : 0 < d) (hi : 0 < c.inflate) (km : ℕ → ℕ → ℕ) (pts : List (Fin d → ℝ))
    (hN : 2 ≤ pts.length) (hNd : d ≤ pts.length) (hkm : ∀ k, 0 < k → ∀ p < pts.length, km k p < k) {fuel : ℕ}
    (hf : pts.length ≤ fuel + 1) :
    ∃ es, recursiveClustering c km fuel pts = some (.ok es) ∧ es ≠ [] ∧ es.length < pts.length ∧
      (∀ e ∈ es, e.idx ≠ [] ∧ ∀ p ∈ e.idx, p < pts.length) ∧
      ∀ p < pts.length, ∃ j : ℕ, (∃ e : Ell d, es[j]? = some e ∧ p ∈ e.idx) ∧
        ∀ (j' : ℕ) (e' : Ell d), es[j']? = some e' → p ∈ e'.idx → j' = j := by
  obtain ⟨e, h1, h2, -⟩ := fit_ok hd hi (idx := List.range pts.length) hNd
  have hg : GoodElls pts.length [e] := by
    refine ⟨?_, ?_, ?_, by simp⟩
    · intro p hp
      refine ⟨0, ⟨e, rfl, by rw [h2]; exact List.mem_range.2 hp⟩, ?_⟩
      intro j' e' h3 _
      rcases j' with _ | j'
      · rfl
      · simp at h3
    · intro e' he p hp
      rw [List.mem_singleton.1 he, h2] at hp
      exact List.mem_range.1 hp
    · intro e' he h0
      rw [List.mem_singleton.1 he, h2] at h0
      have h3 := congrArg List.length h0
      rw [List.length_range, List.length_nil] at h3
      omega
  obtain ⟨es, f1, f2, -, f4⟩ := clustering_spec (c := c) hd hi km pts (fun k p hp => by
    rcases k.eq_zero_or_pos with h | h
    · exact Or.inr h
    · exact Or.inl (hkm k h p hp)) fuel [e] hg (by simpa using hN) (by simpa using hf)
  refine ⟨es, ?_, f2.pos, f4, fun e he => ⟨f2.ne e he, f2.lt e he⟩, f2.part⟩
  unfold recursiveClustering
  rw [h1]
  exact f1

end MultiNested
end Verif
