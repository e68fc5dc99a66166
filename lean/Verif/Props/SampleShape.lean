import Verif.Proof.Pick
import Verif.Props.Mixture

/-!
# Property C108: the shape of the arrays returned by `sample`
-/

set_option linter.unusedSectionVars false
set_option autoImplicit false

namespace Verif

variable {d : ℕ}

/-! ### Specification -/

/-- The call returns an array of `n` rows and `d` columns. -/
def ReturnsRows {K : Type*} (r : Except PyErr (NArr K)) (n d : ℕ) : Prop := ∃ a, r = .ok a ∧ a.shape = [n, d]

/-! ### Properties -/

/-- **C108** (what holds) For every number of samples the uniform, normal and delta distributions return an array with
one row per sample and one column per dimension; so does a mixture of any components that do, for at least one sample,
any number of dimensions but zero and any weights without an infinity, whatever the outcomes of the generator.
Missing with respect to C108: the distributions of `C108_refuted`. -/
theorem C108_partial {K : Type*} [Field K] [LinearOrder K] [IsStrictOrderedRing K] :
    (∀ (U : Uniform K d) u n, ReturnsRows (U.sample u n) n d) ∧
    (∀ (D : Delta K d) n, ReturnsRows (D.sampleArr n) n d) ∧
    (∀ (N : Normal d) s v z n, ReturnsRows (N.sample s v z n) n d) ∧
    ∀ (comps : List (ℕ → Except PyErr (NArr K))), comps ≠ [] → 0 < d → (∀ q ∈ comps, ∀ k, ReturnsRows (q k) 1 d) →
      ∀ (ws : List (XF K)), ws.length = comps.length → .pinf ∉ ws →
      ∃ stored, setWeights comps.length ws = .ok stored ∧
        ∀ bern n, 0 < n → ReturnsRows (mixSampleArr comps stored bern n) n d := by
  refine ⟨fun U u n => ⟨_, rfl, by simp [NArr.shape]⟩, fun D n => ⟨_, rfl, by simp [NArr.shape, Delta.sample]⟩,
    fun N s v z n => ⟨_, rfl, by simp [NArr.shape]⟩, ?_⟩
  intro comps hne hd hq ws hl hinf
  obtain ⟨fs, hfs, hlen⟩ := setWeights_finite ws hinf
  refine ⟨fs.map .fin, hl ▸ hfs, ?_⟩
  intro bern n hn
  have hrow : ∀ i (hi : i < comps.length) k, ∃ r : Fin d → K, comps[i] k = .ok (.mat d [r]) := by
    intro i hi k
    obtain ⟨a, ha, hs⟩ := hq comps[i] (List.getElem_mem hi) k
    cases a with
    | vec xs => simp [NArr.shape] at hs
    | other => simp [NArr.shape] at hs
    | mat m rows =>
      simp only [NArr.shape, List.cons.injEq, and_true] at hs
      obtain ⟨h1, rfl⟩ := hs
      obtain ⟨r, rfl⟩ := List.length_eq_one_iff.1 h1
      exact ⟨r, ha⟩
  have hchoose : ∃ draw : ℕ → ℕ → Fin d → K, ∀ i (hi : i < comps.length) k, comps[i] k = .ok (.mat d [draw i k]) := by
    refine ⟨fun i k => if hi : i < comps.length then (hrow i hi k).choose else fun _ => 0, ?_⟩
    intro i hi k
    simp only [hi, dif_pos]
    exact (hrow i hi k).choose_spec
  obtain ⟨draw, hdraw⟩ := hchoose
  have := (mixSampleArr_eq hd comps draw hdraw fs (by omega) hne bern n hn).1
  exact ⟨_, this, by simp [NArr.shape]⟩

/-- **C108** (negation) The exponential distribution never returns an array with a row per sample, whatever the mean, the
random numbers and the number of samples, and with at least two dimensions it raises whenever the number of samples
is not the number of dimensions, in particular for one sample. The classes without sampler of their own raise. -/
theorem C108_refuted :
    (∀ (d : ℕ) (s : Exponential d) u n, ¬ ReturnsRows (s.sample u n) n d) ∧
    (∀ (d : ℕ) (s : Exponential d) u n, d ≠ 1 → n ≠ d → s.sample u n = .error .value) ∧
    (∀ (d : ℕ) (K : Type) n, ¬ ReturnsRows (baseSample n : Except PyErr (NArr K)) n d) := by
  refine ⟨?_, ?_, ?_⟩
  · rintro d s u n ⟨a, ha, hs⟩
    unfold Exponential.sample at ha
    split_ifs at ha
    · cases ha
      simp [NArr.shape] at hs
    · cases ha
      simp [NArr.shape] at hs
  · intro d s u n h1 h2
    unfold Exponential.sample
    rw [dif_neg h1, dif_neg (Ne.symm h2)]
  · rintro d K n ⟨a, ha, -⟩
    cases ha

/-- The mixture of the demonstration in CMixtureModel.py (uniform, exponential and normal components in one dimension)
raises as soon as a sample of the exponential component follows one of another component, or conversely. -/
theorem C108_refuted_mixture (U : Uniform ℝ 1) (E : Exponential 1) (u : ℕ → Fin 1 → ℝ) (v : ℕ → ℝ) (bern : ℕ → ℕ → ℝ → Bool)
    (w0 w1 : ℝ) (n : ℕ) (k : ℕ) (hk : k + 1 < n) (h : bern k 0 w0 ≠ bern (k + 1) 0 w0) :
    mixSampleArr [fun i => U.sample (fun _ => u i) 1, fun i => E.sample (fun _ => v i) 1] [.fin w0, .fin w1] bern n =
      .error .value := by
  have hf : finites [XF.fin w0, XF.fin w1] = some [w0, w1] := rfl
  unfold mixSampleArr
  rw [hf]
  simp only
  set comps : List (ℕ → Except PyErr (NArr ℝ)) :=
    [fun i => U.sample (fun _ => u i) 1, fun i => E.sample (fun _ => v i) 1] with hcomps
  -- a step appends to an array of the right kind, or raises
  have hstep : ∀ res i, mixSampleStep comps [w0, w1] bern res i =
      if bern i 0 w0 then (if res.size ≠ 0 then res.concat (.mat 1 [U.sample1 (u i)]) else .ok (.mat 1 [U.sample1 (u i)]))
      else (if res.size ≠ 0 then res.concat (.vec [Exponential.sample1 (E.loc 0) (v i)])
        else .ok (.vec [Exponential.sample1 (E.loc 0) (v i)])) := by
    intro res i
    unfold mixSampleStep
    obtain ⟨h1, -⟩ := argmax_pick (bern i) [w0, w1] (by simp)
    rw [h1]
    by_cases hb : bern i 0 w0 = true
    · simp [pickGo, hb, hcomps, Uniform.sample, div_one]
    · simp [pickGo, hb, hcomps, Exponential.sample, div_one]
  -- after the steps up to `i` the array is of the kind of the last component
  have hinv : ∀ i, (List.range (i + 1)).foldlM (mixSampleStep comps [w0, w1] bern) (.vec []) = .error .value ∨
      ∃ res, (List.range (i + 1)).foldlM (mixSampleStep comps [w0, w1] bern) (.vec []) = .ok res ∧ res.size ≠ 0 ∧
        if bern i 0 w0 then ∃ rows, res = .mat 1 rows else ∃ xs, res = .vec xs := by
    intro i
    induction i with
    | zero =>
      right
      by_cases hb : bern 0 0 w0 = true
      · refine ⟨.mat 1 [U.sample1 (u 0)], ?_, by simp [NArr.size], by rw [if_pos hb]; exact ⟨_, rfl⟩⟩
        rw [List.range_succ, List.range_zero, List.nil_append, List.foldlM_cons, hstep, if_pos hb]
        rfl
      · refine ⟨.vec [Exponential.sample1 (E.loc 0) (v 0)], ?_, by simp [NArr.size], by rw [if_neg hb]; exact ⟨_, rfl⟩⟩
        rw [List.range_succ, List.range_zero, List.nil_append, List.foldlM_cons, hstep, if_neg hb]
        rfl
    | succ i ih =>
      rw [List.range_succ (n := i + 1), List.foldlM_append]
      rcases ih with he | ⟨res, hr, hsz, hkind⟩
      · left; rw [he]; rfl
      · rw [hr]
        show (List.foldlM (mixSampleStep comps [w0, w1] bern) res [i + 1] = _) ∨ _
        simp only [show ∀ r : NArr ℝ, ((Except.ok r : Except PyErr (NArr ℝ)) >>= fun s => List.foldlM (mixSampleStep comps [w0, w1] bern) s [i + 1]) =
          List.foldlM (mixSampleStep comps [w0, w1] bern) r [i + 1] from fun _ => rfl]
        simp only [List.foldlM_cons, List.foldlM_nil]
        rw [hstep]
        simp only [hsz, ne_eq, not_false_eq_true, if_true]
        by_cases hb : bern (i + 1) 0 w0 = true
        · rw [if_pos hb]
          by_cases hbi : bern i 0 w0 = true
          · rw [if_pos hbi] at hkind
            obtain ⟨rows, rfl⟩ := hkind
            right
            refine ⟨_, rfl, ?_, by rw [if_pos hb]; exact ⟨_, rfl⟩⟩
            simp [NArr.size]
          · rw [if_neg hbi] at hkind
            obtain ⟨xs, rfl⟩ := hkind
            left; rfl
        · rw [if_neg hb]
          by_cases hbi : bern i 0 w0 = true
          · rw [if_pos hbi] at hkind
            obtain ⟨rows, rfl⟩ := hkind
            left; rfl
          · rw [if_neg hbi] at hkind
            obtain ⟨xs, rfl⟩ := hkind
            right
            refine ⟨_, rfl, ?_, by rw [if_neg hb]; exact ⟨_, rfl⟩⟩
            simp [NArr.size]
  -- the step `k + 1` raises
  have hk1 : (List.range (k + 2)).foldlM (mixSampleStep comps [w0, w1] bern) (.vec []) = .error .value := by
    rw [List.range_succ (n := k + 1), List.foldlM_append]
    rcases hinv k with he | ⟨res, hr, hsz, hkind⟩
    · rw [he]; rfl
    · rw [hr]
      show List.foldlM (mixSampleStep comps [w0, w1] bern) res [k + 1] = _
      rw [List.foldlM_cons, hstep]
      simp only [hsz, ne_eq, not_false_eq_true, if_true]
      by_cases hb : bern (k + 1) 0 w0 = true
      · have hbi : ¬ bern k 0 w0 = true := by rw [hb] at h; exact h
        rw [if_pos hb]
        rw [if_neg hbi] at hkind
        obtain ⟨xs, rfl⟩ := hkind
        rfl
      · have hbi : bern k 0 w0 = true := by
          cases hx : bern k 0 w0
          · rw [hx] at h; simp at hb; rw [hb] at h; exact absurd rfl h
          · rfl
        rw [if_neg hb]
        rw [if_pos hbi] at hkind
        obtain ⟨rows, rfl⟩ := hkind
        rfl
  obtain ⟨m, rfl⟩ : ∃ m, n = k + 2 + m := ⟨n - (k + 2), by omega⟩
  rw [List.range_add, List.foldlM_append, hk1]
  rfl

/-- **C108**, mixtures of one-dimensional exponentials: for any number of samples the mixture returns a vector (not rows) whose
`k`-th number is the number drawn in round `k` from one of the components. -/
theorem C108_partial_exponential (Es : List (Exponential 1)) (hne : Es ≠ []) (v : ℕ → ℕ → ℝ) (ws : List (XF ℝ))
    (hl : ws.length = Es.length) (hinf : .pinf ∉ ws) :
    ∃ stored, setWeights Es.length ws = .ok stored ∧ ∀ bern n, ∃ choice : ℕ → Fin Es.length,
      mixSampleArr (Es.mapIdx fun i E => fun k => E.sample (fun _ => v i k) 1) stored bern n =
        .ok (.vec ((List.range n).map fun k => Exponential.sample1 ((Es.get (choice k)).loc 0) (v (choice k) k))) := by
  obtain ⟨fs, hfs, hlen⟩ := setWeights_finite ws hinf
  refine ⟨fs.map .fin, hl ▸ hfs, ?_⟩
  intro bern n
  have hfne : fs ≠ [] := by
    intro h
    rw [h] at hlen
    exact hne (List.length_eq_zero_iff.1 (by rw [← hl, ← hlen]; rfl))
  have hp : ∀ k, pickGo (bern k) 0 1 fs < Es.length := fun k => by
    have := (argmax_pick (bern k) fs hfne).2
    omega
  refine ⟨fun k => ⟨_, hp k⟩, ?_⟩
  unfold mixSampleArr
  rw [finites_map_fin]
  simp only
  have hstep : ∀ xs k, mixSampleStep (Es.mapIdx fun i E => fun k => E.sample (fun _ => v i k) 1) fs bern (.vec xs) k =
      .ok (.vec (xs ++ [Exponential.sample1 ((Es.get ⟨_, hp k⟩).loc 0) (v (pickGo (bern k) 0 1 fs) k)])) := by
    intro xs k
    unfold mixSampleStep
    have hget : (Es.mapIdx fun i E => fun k => E.sample (fun _ => v i k) 1)[pickGo (bern k) 0 1 fs]? =
        some (fun k' => (Es[pickGo (bern k) 0 1 fs]'(hp k)).sample (fun _ => v (pickGo (bern k) 0 1 fs) k') 1) := by
      simp [List.getElem?_mapIdx, hp k]
    have hE : ∀ (E : Exponential 1) (u : ℝ), E.sample (fun _ => u) 1 = .ok (.vec [Exponential.sample1 (E.loc 0) u]) := by
      intro E u
      simp [Exponential.sample]
    rw [(argmax_pick (bern k) fs hfne).1, hget]
    simp only [hE]
    cases xs with
    | nil => simp [NArr.size]
    | cons x xs => simp [NArr.size, NArr.concat]
  induction n with
  | zero => rfl
  | succ n ih =>
    rw [List.range_succ, List.foldlM_append, ih]
    simp only [bind, Except.bind, List.foldlM_cons, List.foldlM_nil, hstep]
    simp [pure, Except.pure]

/-- Two exponentials, weights one third and two thirds. -/
example : ([⟨![1], ![1], ![0]⟩, ⟨![2], ![2], ![0]⟩] : List (Exponential 1)) ≠ [] ∧ XF.pinf ∉ [XF.fin (1/3 : ℝ), .fin (2/3)] := by simp

/-- No sample at all: the mixture returns an array of shape `(0,)`. -/
theorem C108_refuted_empty {K : Type*} [Field K] [LinearOrder K] (comps : List (ℕ → Except PyErr (NArr K)))
    (weights : List (XF K)) (bern : ℕ → ℕ → K → Bool) :
    mixSampleArr comps weights bern 0 = .ok (.vec []) := by
  unfold mixSampleArr
  split
  · rfl
  · rfl

/-- Concrete run of C108: two uniform components of dimension 2, three samples. -/
example : (mixSampleArr
    [fun k => (Uniform.mk ![0, 0] ![1, 1] 4 : Uniform ℚ 2).sample (fun _ => ![(k : ℚ) / 4, 1 / 2]) 1,
     fun k => (Uniform.mk ![5, 5] ![1, 1] 4 : Uniform ℚ 2).sample (fun _ => ![(k : ℚ) / 4, 1 / 2]) 1]
    [.fin (1/2), .fin (1/2)] (fun k _ _ => k == 1) 3).map NArr.shape = .ok [3, 2] := by decide +kernel

/-- The hypothesis of `C108_refuted_mixture` is met by generators that select different components in a row. -/
example : (fun k (_ : ℕ) (_ : ℝ) => k == 1 : ℕ → ℕ → ℝ → Bool) 0 0 (1/2) ≠
    (fun k (_ : ℕ) (_ : ℝ) => k == 1 : ℕ → ℕ → ℝ → Bool) 1 0 (1/2) := by simp

end Verif
