import Verif.Model.ToDict
import Verif.Props.GMM

/-!
# C145: a distribution saved as a benchmark entry can be loaded again
-/

set_option linter.unusedSectionVars false
set_option autoImplicit false

namespace Verif
namespace ToDict

theorem bind_ok {α β : Type} {x : Except PyErr α} {f : α → Except PyErr β} {b : β} (h : x >>= f = .ok b) :
    ∃ a, x = .ok a ∧ f a = .ok b := by
  cases x with
  | error => cases h
  | ok a => exact ⟨a, rfl, h⟩

theorem mapM_tolist : ∀ {l : List Vec} {r : List (List ℝ)}, l.mapM Vec.tolist = .ok r → r = l.map Vec.vals
  | [], r, h => by cases h; rfl
  | v :: l, r, h => by
    rw [List.mapM_cons] at h
    obtain ⟨a, h1, h⟩ := bind_ok h
    obtain ⟨r', h2, h⟩ := bind_ok h
    cases h
    unfold Vec.tolist at h1
    split at h1
    · cases h1
      rw [mapM_tolist h2]
      rfl
    · cases h1

theorem toDict_ok {o : Obj} {name : Option String} {b n k : ℕ} {e : Entry} (h : toDict o name b n k = .ok e) :
    e = ⟨name.getD "GMM", "distributions.CGaussianMixtureModel", b, n, k, "mixture", o.dims, o.support.map Vec.vals,
      o.means.map Vec.vals, o.sigmas.map Vec.vals, o.weights.vals⟩ := by
  unfold toDict at h
  obtain ⟨s, h1, h⟩ := bind_ok h
  obtain ⟨m, h2, h⟩ := bind_ok h
  obtain ⟨v, h3, h⟩ := bind_ok h
  obtain ⟨w, h4, h⟩ := bind_ok h
  cases h
  rw [mapM_tolist h1, mapM_tolist h2, mapM_tolist h3]
  unfold Vec.tolist at h4
  split at h4
  · cases h4; rfl
  · cases h4

/-- **C145_refuted** What `to_dict` gives for a Gaussian mixture is rejected by the benchmark: for every mixture, every name and
all sizes the type in the entry does not name the class. And a mixture that was loaded from a file cannot be saved: `to_dict`
raises. There are mixtures that can be saved. -/
theorem C145_refuted :
    (∀ (o : Obj) (name : Option String) (b n k : ℕ) (e : Entry), toDict o name b n k = .ok e → load e = .error .value) ∧
    (∀ (e : Entry) (o : Obj), load e = .ok o → ∀ (name : Option String) (b n k : ℕ), ∃ er, toDict o name b n k = .error er) ∧
    ∃ (p : Params) (o : Obj) (e : Entry), new p = .ok o ∧ toDict o (some "mix") 32 1000 2000 = .ok e := by
  refine ⟨?_, ?_, ?_⟩
  · intro o name b n k e h
    rw [toDict_ok h]
    have : resolve "distributions.CGaussianMixtureModel" = .error .attribute := by decide +kernel
    unfold load
    dsimp only
    rw [this]
  · intro e o h name b n k
    unfold load at h
    split at h
    · cases h
    · split at h
      · split at h
        · cases h
        · rename_i o' ho
          cases h
          unfold new at ho
          split at ho
          · cases ho
          · dsimp only at ho
            split at ho
            · cases ho
            · cases ho
              have hw : Vec.tolist ⟨false, e.weights⟩ = .error .attribute := rfl
              unfold toDict
              dsimp only [Option.getD_some]
              cases List.mapM Vec.tolist (List.map (Vec.mk false) e.support) with
              | error er => exact ⟨er, rfl⟩
              | ok s =>
                cases List.mapM Vec.tolist (List.map (Vec.mk false) e.means) with
                | error er => exact ⟨er, rfl⟩
                | ok m =>
                  cases List.mapM Vec.tolist (List.map (Vec.mk false) e.sigmas) with
                  | error er => exact ⟨er, rfl⟩
                  | ok v => exact ⟨.attribute, rfl⟩
      · cases h
  · have hmk : ∃ g, GMM.mk' [vec 1 [0]] [vec 1 [1]] (some [XF.fin 1]) (vec 1 [-5], vec 1 [5]) = .ok g := by
      unfold GMM.mk'
      rw [if_neg (by simp)]
      have hv : ∀ k : Fin 1, 0 < vec 1 [1] k := by intro k; fin_cases k; norm_num [vec]
      have hz : (List.zip [vec 1 [0]] [vec 1 [1]]).mapM (fun p => Normal.mk' p.1 (Matrix.diagonal p.2)) =
          .ok [diagNormal (vec 1 [0], vec 1 [1])] := by
        rw [List.zip_cons_cons, List.zip_nil_left, List.mapM_cons, List.mapM_nil, diag_mk hv]
        rfl
      rw [hz]
      exact ⟨_, rfl⟩
    obtain ⟨g, hg⟩ := hmk
    refine ⟨⟨[⟨true, [0]⟩], [⟨true, [1]⟩], some ⟨true, [1]⟩, [⟨true, [-5]⟩, ⟨true, [5]⟩]⟩, ?_⟩
    refine ⟨⟨1, [⟨true, [0]⟩], [⟨true, [1]⟩], ⟨true, [1]⟩, [⟨true, [-5]⟩, ⟨true, [5]⟩], g⟩, _, ?_, rfl⟩
    unfold new
    dsimp only
    split
    · rename_i e he
      have he' : GMM.mk' [vec 1 [0]] [vec 1 [1]] (some [XF.fin 1]) (vec 1 [-5], vec 1 [5]) = .error e := he
      rw [hg] at he'
      cases he'
    · rename_i g' he
      have he' : GMM.mk' [vec 1 [0]] [vec 1 [1]] (some [XF.fin 1]) (vec 1 [-5], vec 1 [5]) = .ok g' := he
      rw [hg] at he'
      cases he'
      rfl

theorem map_mk_vals (l : List Vec) (d : ℕ) : ((l.map Vec.vals).map (Vec.mk false)).map (fun v => vec d v.vals) =
    l.map fun v => vec d v.vals := by
  rw [List.map_map, List.map_map]
  rfl

theorem getD_vals (l : List Vec) (i : ℕ) : (((l.map Vec.vals).map (Vec.mk false)).getD i ⟨true, []⟩).vals = (l.getD i ⟨true, []⟩).vals := by
  rw [List.map_map]
  simp only [List.getD_eq_getElem?_getD, List.getElem?_map]
  cases l[i]? <;> rfl

/-- **C145_partial** With the type of the entry replaced by the name of the class, the entry of every mixture that can be saved
is loaded, keeps name and sizes, and gives a mixture with the same dimensions, means, variances, weights and support, and the
same density on every batch. -/
theorem C145_partial (p : Params) (o : Obj) (hn : new p = .ok o) (name : Option String) (b n k : ℕ) (e : Entry)
    (h : toDict o name b n k = .ok e) :
    (e.batchSize = b ∧ e.nsamples = n ∧ e.nsamplesEval = k ∧ (∀ s, name = some s → e.name = s)) ∧
    ∃ o', load { e with type := "CGaussianMixtureModel" } = .ok o' ∧ o'.dims = o.dims ∧
      o'.means.map Vec.vals = o.means.map Vec.vals ∧ o'.sigmas.map Vec.vals = o.sigmas.map Vec.vals ∧
      o'.weights.vals = o.weights.vals ∧ o'.support.map Vec.vals = o.support.map Vec.vals ∧
      ∀ data, o'.prob data = o.prob data := by
  have he := toDict_ok h
  subst he
  refine ⟨⟨rfl, rfl, rfl, by rintro s rfl; rfl⟩, ?_⟩
  unfold new at hn
  split at hn
  · cases hn
  · rename_i m rest hm
    dsimp only at hn
    split at hn
    · cases hn
    · rename_i g hg
      cases hn
      have hres : resolve "CGaussianMixtureModel" = .ok "CGaussianMixtureModel" := by decide +kernel
      have hvv : ∀ l : List Vec, ((l.map Vec.vals).map (Vec.mk false)).map Vec.vals = l.map Vec.vals := by
        intro l
        rw [List.map_map, List.map_map]
        rfl
      refine ⟨⟨m.vals.length, (p.means.map Vec.vals).map (Vec.mk false), (p.sigmas.map Vec.vals).map (Vec.mk false),
        ⟨false, (p.weights.getD ⟨true, List.replicate p.means.length (1 / p.means.length)⟩).vals⟩,
        (p.support.map Vec.vals).map (Vec.mk false), g⟩, ?_, rfl, hvv _, hvv _, rfl, hvv _, fun data => rfl⟩
      unfold load
      dsimp only
      rw [hres]
      dsimp only
      rw [if_pos rfl]
      unfold new
      dsimp only
      have hcons : (p.means.map Vec.vals).map (Vec.mk false) = ⟨false, m.vals⟩ :: (rest.map Vec.vals).map (Vec.mk false) := by
        rw [hm]; rfl
      have hg2 := hg
      rw [← map_mk_vals p.means, ← map_mk_vals p.sigmas, ← getD_vals p.support, ← getD_vals p.support] at hg2
      rw [hcons] at hg2 ⊢
      dsimp only [Option.getD_some]
      rw [hg2]

/-- **C145**, what is loaded: an entry of this class with at least one mean, as many positive variances and weights, and weights
that are not all zero gives the mixture of these normals with the normalised weights; whatever is wrong with an entry, the
exception is a ValueError. -/
theorem C145_load (e : Entry) :
    (∀ er, load e = .error er → er = .value) ∧
    ∀ m rest, e.type = "CGaussianMixtureModel" → e.means = m :: rest → e.sigmas.length = e.means.length →
      e.weights.length = e.means.length → (∀ v ∈ e.sigmas, ∀ k : Fin m.length, 0 < vec m.length v k) → (∀ w ∈ e.weights, 0 ≤ w) →
      0 < e.weights.sum →
      ∃ o, load e = .ok o ∧ o.dims = m.length ∧ ∀ data, o.prob data = data.map fun x =>
        .fin (gaussMix (e.means.map (vec m.length)) (e.sigmas.map (vec m.length)) (e.weights.map (· / e.weights.sum)) (vec m.length x)) := by
  refine ⟨?_, ?_⟩
  · intro er h
    unfold load at h
    split at h
    · cases h; rfl
    · split at h
      · split at h
        · cases h; rfl
        · cases h
      · cases h; rfl
  · intro m rest htype hm hs hw hv hw0 hsum
    obtain ⟨g, w, hg, -, -, -, hwq, hprob, -⟩ := C91_gmm_density (e.means.map (vec m.length)) (e.sigmas.map (vec m.length))
      (by rw [hm]; simp) (by simpa using hs)
      (by intro v hv'; obtain ⟨u, hu, rfl⟩ := List.mem_map.1 hv'; exact hv u hu)
      (some (e.weights.map .fin)) (by
        intro l hl
        cases hl
        refine ⟨by simpa using hw, ?_⟩
        by_contra hn
        have hz : ∀ x ∈ e.weights, x = 0 := by
          intro x hx
          by_contra hx0
          exact hn ⟨⟨x, lt_of_le_of_ne (hw0 x hx) (Ne.symm hx0), List.mem_map.2 ⟨x, hx, rfl⟩⟩, by simp⟩
        rw [List.sum_eq_zero hz] at hsum
        exact lt_irrefl _ hsum)
      (vec m.length (((e.support.map (Vec.mk false)).getD 0 ⟨true, []⟩).vals), vec m.length (((e.support.map (Vec.mk false)).getD 1 ⟨true, []⟩).vals))
    have hres : resolve "CGaussianMixtureModel" = .ok "CGaussianMixtureModel" := by decide +kernel
    have hvv : ∀ l : List (List ℝ), (l.map (Vec.mk false)).map (fun v => vec m.length v.vals) = l.map (vec m.length) := by
      intro l
      rw [List.map_map]
      rfl
    refine ⟨⟨m.length, e.means.map (Vec.mk false), e.sigmas.map (Vec.mk false), ⟨false, e.weights⟩, e.support.map (Vec.mk false), g⟩, ?_, rfl, ?_⟩
    · unfold load
      rw [htype, hres]
      dsimp only
      rw [if_pos rfl]
      unfold new
      have hcons : e.means.map (Vec.mk false) = ⟨false, m⟩ :: rest.map (Vec.mk false) := by rw [hm]; rfl
      rw [← hvv e.means, ← hvv e.sigmas] at hg
      rw [hcons] at hg ⊢
      dsimp only [Option.getD_some]
      rw [hg]
    · intro data
      show g.prob _ = _
      rw [hprob, hwq _ rfl hw0, List.map_map]
      rfl

/-- An entry that meets the conditions. -/
example : ∃ (e : Entry) (m : List ℝ) (rest : List (List ℝ)), e.type = "CGaussianMixtureModel" ∧ e.means = m :: rest ∧
    e.sigmas.length = e.means.length ∧ e.weights.length = e.means.length ∧ (∀ v ∈ e.sigmas, ∀ k : Fin m.length, 0 < vec m.length v k) ∧
    (∀ w ∈ e.weights, 0 ≤ w) ∧ 0 < e.weights.sum :=
  ⟨⟨"mix", "CGaussianMixtureModel", 32, 1000, 2000, "mixture", 1, [[-1], [1]], [[0], [1]], [[1], [2]], [1, 3]⟩, [0], [[1]], rfl, rfl, rfl, rfl,
    by
      intro v hv k
      have hk : (k : ℕ) = 0 := by have := k.2; exact Nat.lt_one_iff.1 this
      simp only [List.mem_cons, List.not_mem_nil, or_false] at hv
      rcases hv with rfl | rfl <;> simp [vec, hk],
    by intro w hw; simp at hw; rcases hw with rfl | rfl <;> norm_num, by norm_num⟩

/-- A mixture that can be saved. -/
example : ∃ (p : Params) (o : Obj) (e : Entry), new p = .ok o ∧ toDict o (some "mix") 32 1000 2000 = .ok e := C145_refuted.2.2

/-- **C145**, what a type name stands for: a class in scope under this name, or one of the two classes of the submodule
`distributions` written with the name of the submodule. -/
theorem C145_names (t c : String) (h : resolve t = .ok c) :
    c = t ∧ t ∈ globals ∨ t = "distributions." ++ c ∧ (c = "CDistribution" ∨ c = "CKernel") := by
  unfold resolve at h
  split at h
  · next hg => cases h; exact Or.inl ⟨rfl, hg⟩
  · split at h
    · next hs =>
      right
      simp only [submodule, List.map_cons, List.map_nil, List.mem_cons, List.not_mem_nil, or_false] at hs
      cases h
      rcases hs with rfl | rfl <;> decide +kernel
    · cases h

example : resolve "distributions.CKernel" = .ok "CKernel" ∧ resolve "CGaussianMixtureModel" = .ok "CGaussianMixtureModel" := by
  decide +kernel

end ToDict
end Verif
