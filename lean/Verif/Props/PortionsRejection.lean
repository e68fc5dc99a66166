import Verif.Props.Portions
import Verif.Model.Rejection

/-!
# C154: asking in portions, rejection sampling

Every iteration draws the number of samples that are missing, so a call cut into portions draws the points in other batches. The
random outcomes are therefore one stream of points and uniform numbers, read in order by both runs.
-/

set_option linter.unusedSectionVars false
set_option autoImplicit false

namespace Verif
namespace Rejection
variable {d : ℕ}

/-! ### Specification -/

/-- The iterations of a call read the stream `ω` in order: the iteration that starts after `S.drawn` points were drawn gets the
next `n - len(samples)` entries. -/
def Reads (c : Cfg d) (ω : ℕ → (Fin d → ℝ) × ℝ) (n : ℕ) : List (Iter d) → Rej d → Prop
  | [], _ => True
  | it :: rest, S => S.samples.length < n →
    (∀ j < n - S.samples.length, it.pts j = (ω (S.drawn + j)).1 ∧ it.u j = (ω (S.drawn + j)).2) ∧
    Reads c ω n rest (body c n it S).1

/-- The accepted ones among the first `m` entries of the stream. -/
noncomputable def acceptedIn (c : Cfg d) (ω : ℕ → (Fin d → ℝ) × ℝ) (m : ℕ) : List (Fin d → ℝ) :=
  ((List.range m).filter fun j => accepts c (ω j).1 (ω j).2).map fun j => (ω j).1

/-! ### Proofs -/

theorem acceptedIn_add (c : Cfg d) (ω : ℕ → (Fin d → ℝ) × ℝ) (m k : ℕ) : acceptedIn c ω (m + k) = acceptedIn c ω m ++
    ((List.range k).filter fun j => accepts c (ω (m + j)).1 (ω (m + j)).2).map fun j => (ω (m + j)).1 := by
  unfold acceptedIn
  rw [List.range_add, List.filter_append, List.map_append, List.filter_map, List.map_map]
  rfl

/-- The samples are the accepted ones among the points drawn, and the last point drawn was accepted. -/
structure Follows (c : Cfg d) (ω : ℕ → (Fin d → ℝ) × ℝ) (S : Rej d) : Prop where
  samples : S.samples = acceptedIn c ω S.drawn
  weights : S.weights.length = S.samples.length

theorem follows_body {c : Cfg d} {ω : ℕ → (Fin d → ℝ) × ℝ} {n : ℕ} {it : Iter d} {S : Rej d} (h : Follows c ω S)
    (hr : ∀ j < n - S.samples.length, it.pts j = (ω (S.drawn + j)).1 ∧ it.u j = (ω (S.drawn + j)).2) :
    Follows c ω (body c n it S).1 := by
  have e : ((List.range (n - S.samples.length)).filter fun j => accepts c (it.pts j) (it.u j)) =
      (List.range (n - S.samples.length)).filter fun j => accepts c (ω (S.drawn + j)).1 (ω (S.drawn + j)).2 := by
    apply List.filter_congr
    intro j hj
    obtain ⟨h1, h2⟩ := hr j (List.mem_range.1 hj)
    rw [h1, h2]
  constructor
  · show S.samples ++ (((List.range (n - S.samples.length)).filter fun j => accepts c (it.pts j) (it.u j)).map it.pts) =
      acceptedIn c ω (S.drawn + (n - S.samples.length))
    rw [acceptedIn_add, ← h.samples, e]
    congr 1
    apply List.map_congr_left
    intro j hj
    exact (hr j (List.mem_range.1 (List.mem_filter.1 hj).1)).1
  · show (S.weights ++ _).length = (S.samples ++ _).length
    rw [List.length_append, List.length_append, h.weights, List.length_map, List.length_map]

theorem body_length_le (c : Cfg d) (n : ℕ) (it : Iter d) (S : Rej d) (h : S.samples.length ≤ n) :
    (body c n it S).1.samples.length ≤ n := by
  show (S.samples ++ (((List.range (n - S.samples.length)).filter fun j => accepts c (it.pts j) (it.u j)).map it.pts)).length ≤ n
  rw [List.length_append, List.length_map]
  have := List.length_filter_le (fun j => accepts c (it.pts j) (it.u j)) (List.range (n - S.samples.length))
  rw [List.length_range] at this
  omega

theorem follows_loop {c : Cfg d} {ω : ℕ → (Fin d → ℝ) × ℝ} {n : ℕ} : ∀ (script : List (Iter d)) {S S' : Rej d},
    (∀ it ∈ script, it.late = false) → Follows c ω S → S.samples.length ≤ n → Reads c ω n script S →
    whileScript (fun S => decide (S.samples.length < n)) Iter.late (body c n) false script S = .done S' →
    Follows c ω S' ∧ S'.samples.length = n
  | [], S, S', _, hf, hn, _, h => by
    rw [whileScript] at h
    by_cases hc : S.samples.length < n
    · simp [hc] at h
    · simp only [hc, decide_false, Bool.false_and, Bool.false_eq_true, if_false] at h
      cases h
      exact ⟨hf, by omega⟩
  | it :: rest, S, S', hl, hf, hn, hr, h => by
    rw [whileScript] at h
    by_cases hc : S.samples.length < n
    · rw [if_pos (by simp [hc])] at h
      have hb : (body c n it S) = ((body c n it S).1, none) := rfl
      rw [hb] at h
      dsimp only at h
      rw [hl it List.mem_cons_self] at h
      obtain ⟨h1, h2⟩ := hr hc
      exact follows_loop rest (fun i hi => hl i (List.mem_cons_of_mem _ hi)) (follows_body hf h1) (body_length_le c n it S hn) h2 h
    · simp only [hc, decide_false, Bool.false_and, Bool.false_eq_true, if_false] at h
      cases h
      exact ⟨hf, by omega⟩

theorem follows_call {c : Cfg d} {ω : ℕ → (Fin d → ℝ) × ℝ} {n : ℕ} {script : List (Iter d)} {idx : ℕ → ℕ} {S S' : Rej d}
    (hl : ∀ it ∈ script, it.late = false) (hf : Follows c ω S) (hn : S.samples.length ≤ n) (hr : Reads c ω n script S)
    (h : importanceSample c n false script idx S = .done S') :
    Follows c ω S' ∧ S'.samples.length = n ∧ S'.weights = List.replicate n (XF.fin (1 / (n : ℝ))) ∧
      (MHast.updateModel c.nKde idx S'.samples).toOption = S'.kde := by
  unfold importanceSample at h
  cases hw : whileScript (fun S => decide (S.samples.length < n)) Iter.late (body c n) false script S with
  | running T => rw [hw] at h; cases h
  | raised e T => rw [hw] at h; cases h
  | done T =>
    rw [hw] at h
    obtain ⟨h1, h2⟩ := follows_loop script hl hf hn hr hw
    dsimp only at h
    cases hm : MHast.updateModel c.nKde idx T.samples with
    | error e => rw [hm] at h; cases h
    | ok m =>
      rw [hm] at h
      cases h
      refine ⟨⟨h1.samples, ?_⟩, h2, ?_, ?_⟩
      · dsimp only
        rw [List.length_replicate, h1.weights]
      · dsimp only
        rw [h1.weights, h2]
      · dsimp only
        rw [hm]
        rfl

theorem acceptedIn_prefix (c : Cfg d) (ω : ℕ → (Fin d → ℝ) × ℝ) {m k : ℕ} (h : m ≤ k) : acceptedIn c ω m <+: acceptedIn c ω k := by
  obtain ⟨r, rfl⟩ := Nat.exists_eq_add_of_le h
  rw [acceptedIn_add]
  exact List.prefix_append _ _

theorem acceptedIn_unique {c : Cfg d} {ω : ℕ → (Fin d → ℝ) × ℝ} {m k : ℕ}
    (h : (acceptedIn c ω m).length = (acceptedIn c ω k).length) : acceptedIn c ω m = acceptedIn c ω k := by
  rcases le_total m k with hm | hm
  · exact (acceptedIn_prefix c ω hm).eq_of_length h
  · exact ((acceptedIn_prefix c ω hm).eq_of_length h.symm).symm

/-- **C154** (rejection sampling): the samples, the weights and the kernel density estimate of the two calls in a row are those of the
single call, when both runs read the same stream of proposed points and uniform numbers. More precisely the samples are the first
`n₂` accepted points of the stream. Missing: the counters (refuted below). -/
theorem C154_rejection_partial (c : Cfg d) (ω : ℕ → (Fin d → ℝ) × ℝ) {n₁ n₂ : ℕ} (hn : n₁ ≤ n₂) {s₁ s₂ s : List (Iter d)}
    {idx₁ idx : ℕ → ℕ} {S₁ S₂ S : Rej d} (hl₁ : ∀ it ∈ s₁, it.late = false) (hl₂ : ∀ it ∈ s₂, it.late = false)
    (hl : ∀ it ∈ s, it.late = false) (hr₁ : Reads c ω n₁ s₁ init) (hr₂ : Reads c ω n₂ s₂ S₁) (hr : Reads c ω n₂ s init)
    (h1 : importanceSample c n₁ false s₁ idx₁ init = .done S₁) (h2 : importanceSample c n₂ false s₂ idx S₁ = .done S₂)
    (h : importanceSample c n₂ false s idx init = .done S) :
    S₂.samples = S.samples ∧ S₂.weights = S.weights ∧ S₂.kde = S.kde ∧ S.samples.length = n₂ ∧
      ∃ m, S.samples = ((List.range m).filter fun j => accepts c (ω j).1 (ω j).2).map fun j => (ω j).1 := by
  have h0 : Follows c ω (init : Rej d) := ⟨rfl, rfl⟩
  obtain ⟨f1, l1, -⟩ := follows_call hl₁ h0 (Nat.zero_le _) hr₁ h1
  obtain ⟨f2, l2, w2, k2⟩ := follows_call hl₂ f1 (by omega) hr₂ h2
  obtain ⟨f3, l3, w3, k3⟩ := follows_call hl h0 (Nat.zero_le _) hr h
  have e : S₂.samples = S.samples := by
    rw [f2.samples, f3.samples]
    apply acceptedIn_unique
    rw [← f2.samples, ← f3.samples, l2, l3]
  exact ⟨e, by rw [w2, w3], by rw [← k2, ← k3, e], l3, S.drawn, f3.samples⟩

/-- The setting of the witness: target and proposal density 1, so that everything is accepted. -/
noncomputable def evenCfg : Cfg 1 := ⟨fun _ => .fin 1, fun _ => .fin 1, 1, 1⟩

/-- Points 0, 1, 2, ... and uniform numbers 0. -/
noncomputable def evenStream : ℕ → (Fin 1 → ℝ) × ℝ := fun j => (fun _ => j, 0)

/-- An iteration that starts at position `k` of the stream. -/
noncomputable def evenIter (k : ℕ) : Iter 1 := ⟨fun j => (evenStream (k + j)).1, fun j => (evenStream (k + j)).2, false⟩

theorem even_accepts (x : Fin 1 → ℝ) : accepts evenCfg x 0 = true := by
  simp [accepts, ratio, evenCfg, XF.fin_div_ne, XF.ltb]

/-- One iteration returns everything that is missing. -/
theorem even_call (n : ℕ) (h0 : 0 < n) (idx : ℕ → ℕ) (S : Rej 1) (hS : S.samples.length < n) :
    ∃ S', importanceSample evenCfg n false [evenIter S.drawn] idx S = .done S' ∧ S'.samples.length = n ∧
      S'.numQ = S.numQ + n ∧ S'.drawn = S.drawn + (n - S.samples.length) := by
  have hf : ((List.range (n - S.samples.length)).filter fun j => accepts evenCfg ((evenIter S.drawn).pts j) ((evenIter S.drawn).u j)) =
      List.range (n - S.samples.length) := List.filter_eq_self.2 fun j _ => even_accepts _
  have hb : (body evenCfg n (evenIter S.drawn) S).1.samples.length = n := by
    show (S.samples ++ List.map _ (List.filter _ _)).length = n
    rw [hf, List.length_append, List.length_map, List.length_range]
    omega
  have hw : whileScript (fun S => decide (S.samples.length < n)) Iter.late (body evenCfg n) false [evenIter S.drawn] S =
      .done (body evenCfg n (evenIter S.drawn) S).1 := by
    rw [whileScript, if_pos (by simp [hS])]
    show whileScript _ _ _ _ [] (body evenCfg n (evenIter S.drawn) S).1 = _
    rw [whileScript, if_neg (by simp [hb])]
  have hne : (body evenCfg n (evenIter S.drawn) S).1.samples ≠ [] := by
    intro h
    rw [h] at hb
    simp at hb
    omega
  unfold importanceSample
  rw [hw]
  dsimp only
  cases hm : MHast.updateModel evenCfg.nKde idx (body evenCfg n (evenIter S.drawn) S).1.samples with
  | error e =>
    unfold MHast.updateModel at hm
    rw [if_neg hne] at hm
    cases hm
  | ok m => exact ⟨_, rfl, hb, rfl, rfl⟩

theorem even_reads (n : ℕ) (S : Rej 1) : Reads evenCfg evenStream n [evenIter S.drawn] S :=
  fun _ => ⟨fun _ _ => ⟨rfl, rfl⟩, trivial⟩

/-- **C154** (rejection sampling) fails for the counters: an iteration adds the number of samples asked for, not the number of points
drawn, so that one sample and then two samples count three points, two samples at once count two. -/
theorem C154_rejection_refuted : ∃ (s₁ s₂ s : List (Iter 1)) (S₁ S₂ S : Rej 1),
    Reads evenCfg evenStream 1 s₁ init ∧ Reads evenCfg evenStream 2 s₂ S₁ ∧ Reads evenCfg evenStream 2 s init ∧
    (∀ it ∈ s₁ ++ s₂ ++ s, it.late = false) ∧
    importanceSample evenCfg 1 false s₁ id init = .done S₁ ∧ importanceSample evenCfg 2 false s₂ id S₁ = .done S₂ ∧
    importanceSample evenCfg 2 false s id init = .done S ∧ S₂.samples.length = 2 ∧ S.samples.length = 2 ∧ S₂.drawn = S.drawn ∧
    S₂.numQ = 3 ∧ S.numQ = 2 := by
  obtain ⟨S₁, a1, a2, a3, a4⟩ := even_call 1 one_pos id init (by simp [init])
  obtain ⟨S₂, b1, b2, b3, b4⟩ := even_call 2 two_pos id S₁ (by omega)
  obtain ⟨S, c1, c2, c3, c4⟩ := even_call 2 two_pos id init (by simp [init])
  refine ⟨_, _, _, S₁, S₂, S, even_reads 1 init, even_reads 2 S₁, even_reads 2 init, ?_, a1, b1, c1, b2, c2, ?_, ?_, ?_⟩
  · intro it hit
    simp only [List.mem_append, List.mem_singleton] at hit
    rcases hit with (rfl | rfl) | rfl <;> rfl
  · rw [b4, a4, c4, a2]
    simp [init]
  · rw [b3, a3]
    simp [init]
  · rw [c3]
    simp [init]

end Rejection
end Verif
