import Verif.Proof.Mixture
import Verif.Model.Sample

/-!
The component selected by `np.argmax(np.random.multinomial(1, weights))`.
-/

set_option linter.unusedSectionVars false
set_option autoImplicit false

namespace Verif
section
variable {K : Type*} [Field K] [LinearOrder K]

/-- Index of the component selected. -/
def pickGo (bern : ℕ → K → Bool) : ℕ → K → List K → ℕ
  | _, _, [] => 0
  | _, _, [_] => 0
  | j, left, p :: q :: ps => if bern j (p / left) then 0 else pickGo bern (j + 1) (left - p) (q :: ps) + 1

theorem multinomialGo_pick (bern : ℕ → K → Bool) : ∀ (ps : List K) (j : ℕ) (left : K), ps ≠ [] →
    pickGo bern j left ps < ps.length ∧
      multinomialGo bern j left ps = (List.replicate ps.length 0).set (pickGo bern j left ps) 1 := by
  intro ps
  induction ps with
  | nil => intro j left h; exact absurd rfl h
  | cons p ps ih =>
    intro j left _
    cases ps with
    | nil => simp [pickGo, multinomialGo]
    | cons q qs =>
      by_cases hb : bern j (p / left) = true
      · simp [pickGo, multinomialGo, hb, List.replicate_succ]
      · obtain ⟨h1, h2⟩ := ih (j + 1) (left - p) (by simp)
        simp only [pickGo, multinomialGo, hb, Bool.false_eq_true, if_false, h2]
        refine ⟨by simpa using h1, by simp [List.replicate_succ]⟩

theorem argmax_pick (bern : ℕ → K → Bool) (ps : List K) (h : ps ≠ []) :
    argmaxNat (multinomial1 bern ps) = pickGo bern 0 1 ps ∧ pickGo bern 0 1 ps < ps.length := by
  obtain ⟨h1, h2⟩ := multinomialGo_pick bern ps 0 1 h
  unfold multinomial1
  rw [h2, argmaxNat_oneHot _ _ h1]
  exact ⟨rfl, h1⟩

variable [IsStrictOrderedRing K]

/-- Without infinite weights the stored weights are finite numbers. -/
theorem setWeights_finite (ws : List (XF K)) (h : .pinf ∉ ws) :
    ∃ fs : List K, setWeights ws.length ws = .ok (fs.map .fin) ∧ fs.length = ws.length := by
  by_cases hp : ∃ x, 0 < x ∧ XF.fin x ∈ ws
  · exact ⟨_, setWeights_eq ws hp h, by simp⟩
  · refine ⟨List.replicate ws.length 0, ?_, by simp⟩
    rw [setWeights_zero]
    · simp
    · intro w hw
      cases w with
      | fin x =>
        have : ¬ 0 < x := fun hx => hp ⟨x, hx, hw⟩
        simp only [badWeight, XF.isNan, Bool.false_or]
        show XF.leb (XF.fin x) (XF.fin 0) = true
        simpa [XF.leb] using this
      | pinf => exact absurd hw h
      | ninf => rfl
      | nan => rfl

/-- The array returned by the mixture: the points of the components selected, as rows. -/
theorem mixSampleArr_eq {d : ℕ} (hd : 0 < d) (comps : List (ℕ → Except PyErr (NArr K))) (draw : ℕ → ℕ → Fin d → K)
    (hc : ∀ i (hi : i < comps.length) k, comps[i] k = .ok (.mat d [draw i k])) (fs : List K) (hl : fs.length = comps.length)
    (hne : comps ≠ []) (bern : ℕ → ℕ → K → Bool) (n : ℕ) (hn : 0 < n) :
    mixSampleArr comps (fs.map .fin) bern n =
        .ok (.mat d ((List.range n).map fun k => draw (pickGo (bern k) 0 1 fs) k)) ∧
    mixtureSample comps.length (fs.map .fin) bern draw n =
        .ok ((List.range n).map fun k => draw (pickGo (bern k) 0 1 fs) k) := by
  have hfs : fs ≠ [] := by
    intro h
    rw [h] at hl
    exact hne (List.length_eq_zero_iff.1 hl.symm)
  constructor
  · unfold mixSampleArr
    rw [finites_map_fin]
    simp only
    have hstep : ∀ (res : NArr K) k, mixSampleStep comps fs bern res k =
        if res.size ≠ 0 then res.concat (.mat d [draw (pickGo (bern k) 0 1 fs) k])
        else .ok (.mat d [draw (pickGo (bern k) 0 1 fs) k]) := by
      intro res k
      obtain ⟨h1, h2⟩ := argmax_pick (bern k) fs hfs
      unfold mixSampleStep
      rw [h1, List.getElem?_eq_getElem (by omega)]
      simp only [hc]
    obtain ⟨n, rfl⟩ : ∃ m, n = m + 1 := ⟨n - 1, by omega⟩
    clear hn
    induction n with
    | zero => simp [List.range_succ, hstep, NArr.size]
    | succ n ih =>
      rw [List.range_succ, List.foldlM_append, ih]
      show (List.foldlM (mixSampleStep comps fs bern) _ [n + 1]) = _
      rw [List.foldlM_cons, hstep, if_pos (by simp [NArr.size]; omega)]
      simp [NArr.concat, pure, Except.pure, bind, Except.bind]
  · unfold mixtureSample
    rw [finites_map_fin]
    simp only
    apply mapM_except_ok
    intro k _
    obtain ⟨h1, h2⟩ := argmax_pick (bern k) fs hfs
    rw [h1, if_pos (by omega)]

end
end Verif
