import Verif.Props.AxisOrder
import Verif.Props.ShiftNested

/-!
# C158 for nested and multi-nested sampling

The argument is that of `C152_nested`: the states of the two runs stay related, since the loop reads stored points only at indices that
exist.
-/

set_option linter.unusedSectionVars false
set_option autoImplicit false

namespace Verif

namespace Nested
variable {d : ℕ}

/-- The sampler with all stored points with the axes in the other order. -/
def permuted (g : Equiv.Perm (Fin d)) (S : Nest d) : Nest d :=
  { S with live := S.live.map (· ∘ g), own := S.own.map (· ∘ g), kde := S.kde.map (List.map (· ∘ g)) }

/-- The problem with the axes in another order. -/
def Cfg.permuted (g : Equiv.Perm (Fin d)) (c : Cfg d) : Cfg d :=
  { c with lo := c.lo ∘ g, hi := c.hi ∘ g, target := fun x => c.target (x ∘ g.symm) }

theorem getD_permuted (g : Equiv.Perm (Fin d)) (l : List (Fin d → ℝ)) {i : ℕ} (h : i < l.length) : (l.map (· ∘ g)).getD i 0 = l.getD i 0 ∘ g := by
  simp [List.getD, List.getElem?_eq_getElem h]

theorem samples_permuted (g : Equiv.Perm (Fin d)) {S : Nest d} (h : WF S) : (permuted g S).samples = S.samples.map (· ∘ g) := by
  unfold Nest.samples
  show (match S.view with | none => _ | some i => _) = _
  cases hv : S.view with
  | none => rfl
  | some i =>
    show [(S.live.map (· ∘ g)).getD i 0] = _
    rw [getD_permuted g _ (h i hv)]
    rfl

theorem addSample_permuted (g : Equiv.Perm (Fin d)) {S : Nest d} (h : WF S) {k : ℕ} (hk : k < S.live.length) :
    addSample k (permuted g S) = permuted g (addSample k S) := by
  unfold addSample
  rw [samples_permuted g h]
  by_cases hs : S.samples = []
  · rw [if_pos hs, if_pos (by rw [hs]; rfl)]
    rfl
  · rw [if_neg hs, if_neg (by simpa using hs)]
    have e : (permuted g S).live = S.live.map (· ∘ g) := rfl
    rw [e, getD_permuted g _ hk]
    simp [permuted]

/-- States of the loops of the two runs: object and local variable `values`. -/
def PSim (g : Equiv.Perm (Fin d)) (p p' : Nest d × List ℝ) : Prop :=
  p'.1 = permuted g p.1 ∧ p'.2 = p.2 ∧ WF p.1 ∧ p.1.live.length = p.2.length

/-- States of the resampling loop of the two runs; the loop changes nothing but the counters of the object. -/
def PSim3 (g : Equiv.Perm (Fin d)) (S : Nest d) (p p' : Nest d × (Fin d → ℝ) × ℝ) : Prop :=
  p'.1 = permuted g p.1 ∧ p'.2.1 = p.2.1 ∘ g ∧ p'.2.2 = p.2.2 ∧ p.1.view = S.view ∧ p.1.live = S.live

/-- The moves of a try with the axes in the other order. -/
def Try.permuted (g : Equiv.Perm (Fin d)) (t : Try d) : Try d := { t with z := t.z ∘ g }

/-- The moves of an iteration with the axes in the other order. -/
def Env.permuted (g : Equiv.Perm (Fin d)) (e : Env d) : Env d := { e with z0 := e.z0 ∘ g, tries := e.tries.map (Try.permuted g) }

theorem resample_permuted (g : Equiv.Perm (Fin d)) (c : Cfg d) (x : Fin d → ℝ) (v : ℝ) (e : Env d) (S : Nest d) :
    (resample c x v e S).Rel (PSim3 g S) (resample (c.permuted g) (x ∘ g) v (e.permuted g) (permuted g S)) := by
  unfold resample
  have hy : clip (c.permuted g).lo (c.permuted g).hi ((e.permuted g).z0 + x ∘ g) = clip c.lo c.hi (e.z0 + x) ∘ g := rfl
  have ht : ∀ y, (c.permuted g).target (y ∘ g) = c.target y := fun y => by
    show c.target ((y ∘ g) ∘ g.symm) = _
    rw [comp_back]
  dsimp only
  rw [hy, ht]
  exact whileScript_rel (Try.permuted g) (R := PSim3 g S) (cond := fun p => decide (p.2.2 < v)) (cond' := fun p => decide (p.2.2 < v))
    (late := Try.late) (late' := Try.late)
    (body := fun t p => ((count p.1, t.z + x, c.target (t.z + x)), none))
    (body' := fun t p => ((count p.1, t.z + x ∘ g, (c.permuted g).target (t.z + x ∘ g)), none))
    (fun s t h => by rw [h.2.2.1]) (fun _ => rfl)
    (fun t p p' h => by
      refine ⟨⟨?_, rfl, ht (t.z + x), h.2.2.2.1, h.2.2.2.2⟩, rfl⟩
      dsimp only
      rw [h.1]
      rfl)
    e.tries e.expired (s := (count S, clip c.lo c.hi (e.z0 + x), c.target (clip c.lo c.hi (e.z0 + x))))
    (t := (count (permuted g S), clip c.lo c.hi (e.z0 + x) ∘ g, c.target (clip c.lo c.hi (e.z0 + x)))) ⟨rfl, rfl, rfl, rfl, rfl⟩

theorem step_permuted (g : Equiv.Perm (Fin d)) (c : Cfg d) (e : Env d) (p p' : Nest d × List ℝ) (h : PSim g p p') :
    (step c e p).Rel (PSim g) (step (c.permuted g) (e.permuted g) p') := by
  obtain ⟨S, vs⟩ := p
  obtain ⟨S', vs'⟩ := p'
  obtain ⟨h1, h2, h3, h4⟩ := h
  dsimp only at h1 h2 h3 h4
  subst h1 h2
  cases vs' with
  | nil => exact ⟨rfl, rfl, rfl, h3, h4⟩
  | cons v vs =>
    have hk : (v :: vs).idxOf (minOf v vs) < S.live.length := by
      rw [h4]
      exact List.idxOf_lt_length_iff.2 (minOf_mem vs v)
    unfold step
    dsimp only
    generalize (v :: vs).idxOf (minOf v vs) = k at hk ⊢
    rw [addSample_permuted g h3 hk]
    obtain ⟨hw, hl⟩ := addSample_wf hk
    have hm : ({ permuted g (addSample k S) with L := (permuted g (addSample k S)).L ++ [minOf v vs] } : Nest d) =
      permuted g { addSample k S with L := (addSample k S).L ++ [minOf v vs] } := rfl
    rw [hm]
    have hlive : (permuted g (addSample k S)).live = (addSample k S).live.map (· ∘ g) := rfl
    have her : (e.permuted g).r = e.r := rfl
    have hlt : e.r % (addSample k S).live.length < (addSample k S).live.length := Nat.mod_lt _ (by rw [hl]; omega)
    rw [her, hlive, List.length_map, getD_permuted g _ hlt]
    have hr := resample_permuted g c ((addSample k S).live.getD (e.r % (addSample k S).live.length) 0) (minOf v vs) e
      { addSample k S with L := (addSample k S).L ++ [minOf v vs] }
    revert hr
    generalize resample c ((addSample k S).live.getD (e.r % (addSample k S).live.length) 0) (minOf v vs) e
      { addSample k S with L := (addSample k S).L ++ [minOf v vs] } = o
    generalize resample (c.permuted g) ((addSample k S).live.getD (e.r % (addSample k S).live.length) 0 ∘ g) (minOf v vs) (e.permuted g)
      (permuted g { addSample k S with L := (addSample k S).L ++ [minOf v vs] }) = o'
    intro hr
    have wf : ∀ q : Nest d, q.view = (addSample k S).view → q.live = (addSample k S).live → WF q ∧ q.live.length = (v :: vs).length := by
      intro q hq1 hq2
      refine ⟨?_, by rw [hq2, hl, h4]⟩
      intro i hi
      rw [hq2]
      exact hw i (by rw [← hq1, hi])
    cases o with
    | done q =>
      cases o' with
      | done q' =>
        obtain ⟨r1, r2, r3, r4, r5⟩ := hr
        obtain ⟨w1, w2⟩ := wf q.1 r4 r5
        refine ⟨?_, ?_, ?_, ?_⟩
        · dsimp only
          rw [r1, r2]
          simp [permuted]
        · dsimp only
          rw [r3]
        · intro i hi
          dsimp only
          rw [List.length_set]
          exact w1 i hi
        · dsimp only
          rw [List.length_set, List.length_set, w2]
      | raised e q' => exact hr.elim
      | running q' => exact hr.elim
    | raised e q =>
      cases o' with
      | done q' => exact hr.elim
      | raised e q' =>
        obtain ⟨r0, r1, r2, r3, r4, r5⟩ := hr
        exact ⟨r0, r1, rfl, wf q.1 r4 r5⟩
      | running q' => exact hr.elim
    | running q =>
      cases o' with
      | done q' => exact hr.elim
      | raised e q' => exact hr.elim
      | running q' =>
        obtain ⟨r1, r2, r3, r4, r5⟩ := hr
        exact ⟨r1, rfl, wf q.1 r4 r5⟩

/-- States of the two objects between calls. -/
def PSimS (g : Equiv.Perm (Fin d)) (S S' : Nest d) : Prop := S' = permuted g S ∧ WF S

theorem finish_permuted (g : Equiv.Perm (Fin d)) (N nKde : ℕ) (idx : ℕ → ℕ) {o o' : Out (Nest d × List ℝ)} (h : o.Rel (PSim g) o') :
    Out.Rel (PSimS g) (finish N nKde idx o) (finish N nKde idx o') := by
  unfold finish
  cases o with
  | running p =>
    cases o' with
    | running p' => exact ⟨h.1, h.2.2.1⟩
    | raised e p' => exact h.elim
    | done p' => exact h.elim
  | raised e p =>
    cases o' with
    | running p' => exact h.elim
    | raised e p' => exact ⟨h.1, h.2.1, h.2.2.2.1⟩
    | done p' => exact h.elim
  | done p =>
    cases o' with
    | running p' => exact h.elim
    | raised e p' => exact h.elim
    | done p' =>
      obtain ⟨S, vs⟩ := p
      obtain ⟨S', vs'⟩ := p'
      obtain ⟨h1, h2, h3, -⟩ := h
      dsimp only at h1 h2 h3 ⊢
      subst h1
      have hs1 : ({ permuted g S with weights := finalWeights N (permuted g S).L } : Nest d).samples = S.samples.map (· ∘ g) := samples_permuted g h3
      have hs2 : ({ S with weights := finalWeights N S.L } : Nest d).samples = S.samples := rfl
      rw [samples_permuted g h3, hs1, hs2, MHast.updateModel_map]
      by_cases he : S.samples = []
      · rw [if_pos he, if_pos (by rw [he]; rfl)]
        exact ⟨rfl, rfl, h3⟩
      · rw [if_neg he, if_neg (by simpa using he)]
        cases MHast.updateModel nKde idx S.samples with
        | error e => exact ⟨rfl, rfl, h3⟩
        | ok m => exact ⟨rfl, h3⟩

theorem importanceSample_permuted (g : Equiv.Perm (Fin d)) (c : Cfg d) (n : ℕ) (env : ℕ → Env d) (idx : ℕ → ℕ) (S S' : Nest d) (h : PSimS g S S') :
    (importanceSample c n env idx S).Rel (PSimS g) (importanceSample (c.permuted g) n (fun i => (env i).permuted g) idx S') := by
  obtain ⟨rfl, hw⟩ := h
  unfold importanceSample
  have hv : (permuted g S).live.map (c.permuted g).target = S.live.map c.target := by
    show (S.live.map (· ∘ g)).map (fun x => c.target (x ∘ g.symm)) = _
    rw [List.map_map]
    exact List.map_congr_left fun x _ => congrArg c.target (comp_back g x)
  rw [hv, samples_permuted g hw, List.length_map]
  have hf := forN_rel (R := PSim g) (g := fun i => step c (env i)) (g' := fun i => step (c.permuted g) ((env i).permuted g))
    (fun i p p' h => step_permuted g c (env i) p p' h) (n - S.samples.length)
    (s := ({ S with numPi := S.numPi + S.live.length }, S.live.map c.target))
    (t := ({ permuted g S with numPi := (permuted g S).numPi + (permuted g S).live.length }, S.live.map c.target))
    ⟨by simp [permuted], rfl, hw, by simp⟩
  exact finish_permuted g c.N c.nKde idx hf

end Nested

/-- **C158** for nested sampling, from new samplers with the same random numbers. -/
theorem C158_nested {d : ℕ} (g : Equiv.Perm (Fin d)) (c : Nested.Cfg d) (us : Fin c.N → Fin d → ℝ) (calls : List (ℕ × (ℕ → Nested.Env d) × (ℕ → ℕ))) :
    session (fun k => Nested.importanceSample { c with lo := c.lo ∘ g, hi := c.hi ∘ g, target := fun x => c.target (x ∘ g.symm) } k.1
          (fun i => { k.2.1 i with z0 := (k.2.1 i).z0 ∘ g, tries := (k.2.1 i).tries.map fun t => { t with z := t.z ∘ g } }) k.2.2)
        (fun S => (S.samples, S.weights, S.live, S.kde, S.numPi, S.numQEval, S.numQ)) calls
        (Nested.reset { c with lo := c.lo ∘ g, hi := c.hi ∘ g, target := fun x => c.target (x ∘ g.symm) } fun k => us k ∘ g) =
      session (fun k => Nested.importanceSample c k.1 k.2.1 k.2.2)
        (fun S => (S.samples.map (· ∘ g), S.weights, S.live.map (· ∘ g), S.kde.map (List.map (· ∘ g)), S.numPi, S.numQEval, S.numQ)) calls
        (Nested.reset c us) := by
  have h := session_rel (fun a : ℕ × (ℕ → Nested.Env d) × (ℕ → ℕ) => a) (R := Nested.PSimS g)
    (fun S => (S.samples.map (· ∘ g), S.weights, S.live.map (· ∘ g), S.kde.map (List.map (· ∘ g)), S.numPi, S.numQEval, S.numQ))
    (fun S => (S.samples, S.weights, S.live, S.kde, S.numPi, S.numQEval, S.numQ))
    (fun S S' h => by
      rw [h.1, Nested.samples_permuted g h.2]
      rfl)
    (call := fun k => Nested.importanceSample c k.1 k.2.1 k.2.2)
    (call' := fun k => Nested.importanceSample (c.permuted g) k.1 (fun i => (k.2.1 i).permuted g) k.2.2)
    (fun k S S' h => Nested.importanceSample_permuted g c k.1 k.2.1 k.2.2 S S' h) calls
    (s := Nested.reset c us) (t := Nested.reset (c.permuted g) fun k => us k ∘ g) ⟨by
      unfold Nested.reset Nested.permuted Nested.Cfg.permuted
      dsimp only
      congr 1
      rw [List.map_ofFn]
      rfl, by
      intro i hi
      cases hi⟩
  rw [List.map_id'] at h
  exact h

/-! ### Multi-nested sampling -/

namespace MultiNested
variable {d : ℕ}
open Nested (permuted WF PSim PSimS PSim3 getD_permuted samples_permuted addSample_permuted addSample_wf finish finish_permuted minOf_mem)
open Nested (Nest addSample minOf finalWeights count)

/-- The ellipsoid with the axes in the other order. -/
def Ell.permuted (g : Equiv.Perm (Fin d)) (e : Ell d) : Ell d := { e with loc := e.loc ∘ g }

/-- The problem with the axes in the other order. -/
def Cfg.permuted (g : Equiv.Perm (Fin d)) (c : Cfg d) : Cfg d :=
  { c with lo := c.lo ∘ g, hi := c.hi ∘ g, target := fun x => c.target (x ∘ g.symm) }

/-- The points drawn from the ellipsoids with the axes in the other order. -/
def Env.permuted (g : Equiv.Perm (Fin d)) (e : Env d) : Env d := ⟨e.y0 ∘ g, e.expired, e.tries.map fun t => ⟨t.y ∘ g, t.late⟩⟩

theorem mean_permuted (g : Equiv.Perm (Fin d)) (pts : List (Fin d → ℝ)) : mean (pts.map (· ∘ g)) = mean pts ∘ g := by
  funext j
  unfold mean
  rw [List.length_map, List.map_map]
  rfl

theorem cov_permuted (g : Equiv.Perm (Fin d)) (pts : List (Fin d → ℝ)) : cov (pts.map (· ∘ g)) = (cov pts).submatrix g g := by
  ext i j
  unfold cov
  rw [mean_permuted g pts, List.length_map]
  simp only [List.map_map, Matrix.of_apply, Matrix.submatrix_apply]
  rfl

theorem std_permuted (g : Equiv.Perm (Fin d)) (pts : List (Fin d → ℝ)) : std (pts.map (· ∘ g)) = std pts := by
  unfold std
  rw [mean_permuted g pts, List.length_map, List.map_map]
  congr 3
  apply List.map_congr_left
  intro x _
  exact Equiv.sum_comp g fun j => (x j - mean pts j) ^ 2

theorem mkEll_permuted (g : Equiv.Perm (Fin d)) (loc : Fin d → ℝ) {A B : Matrix (Fin d) (Fin d) ℝ} (h : B.det = A.det) (idx : List ℕ) :
    mkEll (loc ∘ g) B idx = (mkEll loc A idx).map (Ell.permuted g) := by
  unfold mkEll
  rw [h]
  split <;> rfl

theorem fit_permuted (g : Equiv.Perm (Fin d)) (inflate : ℝ) (pts : List (Fin d → ℝ)) (idx : List ℕ) :
    fit inflate (pts.map (· ∘ g)) idx = (fit inflate pts idx).map (Ell.permuted g) := by
  unfold fit
  rw [List.length_map]
  by_cases h : pts.length < d
  · rw [if_pos h, if_pos h]
    rfl
  · rw [if_neg h, if_neg h, mean_permuted g pts, cov_permuted g pts, std_permuted g pts, Matrix.det_submatrix_equiv_self]
    split
    · split
      · exact mkEll_permuted g _ rfl idx
      · refine mkEll_permuted g _ ?_ idx
        rw [← Matrix.det_submatrix_equiv_self g (inflate • cov pts)]
        rfl
    · split <;> exact mkEll_permuted g _ rfl idx

theorem fitAll_permuted (g : Equiv.Perm (Fin d)) (c : Cfg d) (km : ℕ → ℕ → ℕ) (pts : List (Fin d → ℝ)) (k : ℕ) : ∀ i,
    fitAll (c.permuted g) km (pts.map (· ∘ g)) k i = (fitAll c km pts k i).map (List.map (Ell.permuted g))
  | 0 => rfl
  | i + 1 => by
    unfold fitAll
    rw [fitAll_permuted g c km pts k i, List.length_map]
    have hp : ((cluster km k pts.length i).map fun p => (pts.map (· ∘ g)).getD p 0) =
        ((cluster km k pts.length i).map fun p => pts.getD p 0).map (· ∘ g) := by
      rw [List.map_map]
      exact List.map_congr_left fun p hp => getD_permuted g pts (cluster_lt hp)
    rw [hp, fit_permuted]
    cases fitAll c km pts k i with
    | error e => rfl
    | ok es =>
      show (match ((fit c.inflate ((cluster km k pts.length i).map fun p => pts.getD p 0) (cluster km k pts.length i)).map (Ell.permuted g)) with
        | .error e => _
        | .ok e => _) = _
      dsimp only
      cases fit c.inflate ((cluster km k pts.length i).map fun p => pts.getD p 0) (cluster km k pts.length i) with
      | error e => rfl
      | ok e => simp [Except.map]

theorem pairDistances_permuted (g : Equiv.Perm (Fin d)) : ∀ es : List (Ell d), pairDistances (es.map (Ell.permuted g)) = pairDistances es
  | [] => rfl
  | e :: es => by
    rw [List.map_cons, pairDistances, pairDistances, pairDistances_permuted g es, List.map_map]
    congr 1
    apply List.map_congr_left
    intro e' _
    exact congrArg Real.sqrt (Equiv.sum_comp g fun i => (e.loc i - e'.loc i) * (e.loc i - e'.loc i))

theorem clustering_permuted (g : Equiv.Perm (Fin d)) (c : Cfg d) (km : ℕ → ℕ → ℕ) (pts : List (Fin d → ℝ)) : ∀ (fuel : ℕ) (es : List (Ell d)),
    clustering (c.permuted g) km (pts.map (· ∘ g)) fuel (es.map (Ell.permuted g)) =
      (clustering c km pts fuel es).map fun r => r.map (List.map (Ell.permuted g))
  | 0, _ => rfl
  | fuel + 1, es => by
    have hv : ∀ es : List (Ell d), (es.map (Ell.permuted g)).map Ell.vol = es.map Ell.vol := fun es => by
      rw [List.map_map]
      rfl
    unfold clustering
    dsimp only
    rw [List.length_map, List.length_map, fitAll_permuted, hv]
    split
    · rfl
    · split
      · rfl
      · cases fitAll c km pts (es.length + 1) (es.length + 1) with
        | error e => rfl
        | ok es' =>
          dsimp only [Except.map]
          rw [hv, pairDistances_permuted]
          split
          · rfl
          · split
            · rfl
            · exact clustering_permuted g c km pts fuel es'

theorem recursiveClustering_permuted (g : Equiv.Perm (Fin d)) (c : Cfg d) (km : ℕ → ℕ → ℕ) (fuel : ℕ) (pts : List (Fin d → ℝ)) :
    recursiveClustering (c.permuted g) km fuel (pts.map (· ∘ g)) =
      (recursiveClustering c km fuel pts).map fun r => r.map (List.map (Ell.permuted g)) := by
  unfold recursiveClustering
  have hi : (c.permuted g).inflate = c.inflate := rfl
  rw [hi, fit_permuted, List.length_map]
  cases fit c.inflate pts (List.range pts.length) with
  | error e => rfl
  | ok e => exact clustering_permuted g c km pts fuel [e]

theorem resample_permuted (g : Equiv.Perm (Fin d)) (c : Cfg d) (el : Ell d) (v : ℝ) (e : Env d) (S : Nest d) :
    (resample c el v e S).Rel (PSim3 g S) (resample (c.permuted g) (el.permuted g) v (e.permuted g) (permuted g S)) := by
  unfold resample
  have hy : clip (c.permuted g).lo (c.permuted g).hi (e.permuted g).y0 = clip c.lo c.hi e.y0 ∘ g := rfl
  have ht : ∀ y, (c.permuted g).target (y ∘ g) = c.target y := fun y => by
    show c.target ((y ∘ g) ∘ g.symm) = _
    rw [comp_back]
  dsimp only
  rw [hy, ht]
  exact whileScript_rel (fun t : Try d => ⟨t.y ∘ g, t.late⟩) (R := PSim3 g S)
    (cond := fun p => decide (p.2.2 < v) && decide (c.radius ^ d < el.vol)) (cond' := fun p => decide (p.2.2 < v) && decide (c.radius ^ d < el.vol))
    (late := Try.late) (late' := Try.late)
    (body := fun t p => ((count p.1, t.y, c.target t.y), none))
    (body' := fun t p => ((count p.1, t.y, (c.permuted g).target t.y), none))
    (fun s t h => by rw [h.2.2.1]) (fun _ => rfl)
    (fun t p p' h => by
      refine ⟨⟨?_, rfl, ht t.y, h.2.2.2.1, h.2.2.2.2⟩, rfl⟩
      dsimp only
      rw [h.1]
      rfl)
    e.tries e.expired (s := (count S, clip c.lo c.hi e.y0, c.target (clip c.lo c.hi e.y0)))
    (t := (count (permuted g S), clip c.lo c.hi e.y0 ∘ g, c.target (clip c.lo c.hi e.y0))) ⟨rfl, rfl, rfl, rfl, rfl⟩

/-- As `Nested.PSim`, with the number of live points. -/
def PSimN (g : Equiv.Perm (Fin d)) (N : ℕ) (p p' : Nest d × List ℝ) : Prop := PSim g p p' ∧ p.2.length = N

theorem step_permuted (g : Equiv.Perm (Fin d)) (c : Cfg d) (N : ℕ) (el : Ell d) (hel : ∀ i ∈ el.idx, i < N) (e : Env d) (p p' : Nest d × List ℝ)
    (h : PSimN g N p p') : (step c el e p).Rel (PSimN g N) (step (c.permuted g) (el.permuted g) (e.permuted g) p') := by
  obtain ⟨S, vs0⟩ := p
  obtain ⟨S', vs'⟩ := p'
  obtain ⟨⟨h1, h2, h3, h4⟩, hN⟩ := h
  dsimp only at h1 h2 h3 h4 hN
  subst h1 h2
  unfold step
  dsimp only
  have hidx : (el.permuted g).idx = el.idx := rfl
  rw [hidx]
  cases hv : el.idx.map (fun i => vs'.getD i 0) with
  | nil => exact ⟨rfl, ⟨rfl, rfl, h3, h4⟩, hN⟩
  | cons v vs =>
    have hk : el.idx.getD ((v :: vs).idxOf (minOf v vs)) 0 < S.live.length := by
      have hlt : (v :: vs).idxOf (minOf v vs) < el.idx.length := by
        rw [← List.length_map (fun i => vs'.getD i 0), hv]
        exact List.idxOf_lt_length_iff.2 (minOf_mem vs v)
      rw [h4, hN, List.getD, List.getElem?_eq_getElem hlt]
      exact hel _ (List.getElem_mem hlt)
    dsimp only
    generalize el.idx.getD ((v :: vs).idxOf (minOf v vs)) 0 = k at hk ⊢
    rw [addSample_permuted g h3 hk]
    obtain ⟨hw, hl⟩ := addSample_wf hk
    have hm : ({ permuted g (addSample k S) with L := (permuted g (addSample k S)).L ++ [minOf v vs] } : Nest d) =
      permuted g { addSample k S with L := (addSample k S).L ++ [minOf v vs] } := rfl
    rw [hm]
    have hr := resample_permuted g c el (minOf v vs) e { addSample k S with L := (addSample k S).L ++ [minOf v vs] }
    revert hr
    generalize resample c el (minOf v vs) e { addSample k S with L := (addSample k S).L ++ [minOf v vs] } = o
    generalize resample (c.permuted g) (el.permuted g) (minOf v vs) (e.permuted g)
      (permuted g { addSample k S with L := (addSample k S).L ++ [minOf v vs] }) = o'
    intro hr
    have wf : ∀ q : Nest d, q.view = (addSample k S).view → q.live = (addSample k S).live → WF q ∧ q.live.length = vs'.length := by
      intro q hq1 hq2
      refine ⟨?_, by rw [hq2, hl, h4]⟩
      intro i hi
      rw [hq2]
      exact hw i (by rw [← hq1, hi])
    cases o with
    | done q =>
      cases o' with
      | done q' =>
        obtain ⟨r1, r2, r3, r4, r5⟩ := hr
        obtain ⟨w1, w2⟩ := wf q.1 r4 r5
        refine ⟨⟨?_, ?_, ?_, ?_⟩, ?_⟩
        · dsimp only
          rw [r1, r2]
          simp [permuted]
        · dsimp only
          rw [r3]
        · intro i hi
          dsimp only
          rw [List.length_set]
          exact w1 i hi
        · dsimp only
          rw [List.length_set, List.length_set, w2]
        · dsimp only
          rw [List.length_set, hN]
      | raised e q' => exact hr.elim
      | running q' => exact hr.elim
    | raised e q =>
      cases o' with
      | done q' => exact hr.elim
      | raised e q' =>
        obtain ⟨r0, r1, r2, r3, r4, r5⟩ := hr
        exact ⟨r0, ⟨r1, rfl, wf q.1 r4 r5⟩, hN⟩
      | running q' => exact hr.elim
    | running q =>
      cases o' with
      | done q' => exact hr.elim
      | raised e q' => exact hr.elim
      | running q' =>
        obtain ⟨r1, r2, r3, r4, r5⟩ := hr
        exact ⟨⟨r1, rfl, wf q.1 r4 r5⟩, hN⟩

theorem step_default_permuted (g : Equiv.Perm (Fin d)) (c : Cfg d) (N : ℕ) (e : Env d) (p p' : Nest d × List ℝ)
    (h : PSimN g N p p') : (step c ⟨0, 0, []⟩ e p).Rel (PSimN g N) (step (c.permuted g) ⟨0, 0, []⟩ (e.permuted g) p') := ⟨rfl, h⟩

theorem importanceSample_permuted (g : Equiv.Perm (Fin d)) (c : Cfg d) (n : ℕ) (km : ℕ → ℕ → ℕ) (fuel : ℕ) (env : ℕ → Env d) (idx : ℕ → ℕ) (S S' : Nest d)
    (h : PSimS g S S') :
    (importanceSample c n km fuel env idx S).Rel (PSimS g) (importanceSample (c.permuted g) n km fuel (fun i => (env i).permuted g) idx S') := by
  obtain ⟨rfl, hw⟩ := h
  have hlive : (permuted g S).live = S.live.map (· ∘ g) := rfl
  have hS0 : ({ permuted g S with numPi := (permuted g S).numPi + (permuted g S).live.length } : Nest d) = permuted g { S with numPi := S.numPi + S.live.length } := by
    simp [permuted]
  have hv : (permuted g S).live.map (c.permuted g).target = S.live.map c.target := by
    show (S.live.map (· ∘ g)).map (fun x => c.target (x ∘ g.symm)) = _
    rw [List.map_map]
    exact List.map_congr_left fun x _ => congrArg c.target (comp_back g x)
  unfold importanceSample
  dsimp only
  rw [hS0, hv, hlive, recursiveClustering_permuted, samples_permuted g hw, List.length_map]
  cases hrc : recursiveClustering c km fuel S.live with
  | none => exact ⟨rfl, hw⟩
  | some r =>
    cases r with
    | error e => exact ⟨rfl, rfl, hw⟩
    | ok ells =>
      have hidx := recursiveClustering_idx hrc
      dsimp only [Option.map, Except.map]
      rw [List.length_map]
      generalize perEll n S.samples.length ells.length = m
      have hstep : ∀ i p p', PSimN g S.live.length p p' →
          (step c (ells.getD (i / m) ⟨0, 0, []⟩) (env i) p).Rel (PSimN g S.live.length)
            (step (c.permuted g) ((ells.map (Ell.permuted g)).getD (i / m) ⟨0, 0, []⟩) ((env i).permuted g) p') := by
        intro i p p' h
        by_cases hi : i / m < ells.length
        · have h1 : (ells.map (Ell.permuted g)).getD (i / m) ⟨0, 0, []⟩ = (ells.getD (i / m) ⟨0, 0, []⟩).permuted g := by
            simp [List.getD, List.getElem?_eq_getElem hi]
          rw [h1]
          refine step_permuted g c _ _ ?_ (env i) p p' h
          rw [List.getD, List.getElem?_eq_getElem hi]
          exact hidx _ (List.getElem_mem hi)
        · have h1 : (ells.map (Ell.permuted g)).getD (i / m) ⟨0, 0, []⟩ = ⟨0, 0, []⟩ := by
            simp [List.getD, List.getElem?_eq_none (not_lt.1 hi)]
          have h2 : ells.getD (i / m) ⟨0, 0, []⟩ = ⟨0, 0, []⟩ := by
            simp [List.getD, List.getElem?_eq_none (not_lt.1 hi)]
          rw [h1, h2]
          exact step_default_permuted g c _ (env i) p p' h
      have hf := forN_rel (R := PSimN g S.live.length) (g := fun i => step c (ells.getD (i / m) ⟨0, 0, []⟩) (env i))
        (g' := fun i => step (c.permuted g) ((ells.map (Ell.permuted g)).getD (i / m) ⟨0, 0, []⟩) ((env i).permuted g))
        hstep (ells.length * m)
        (s := ({ S with numPi := S.numPi + S.live.length }, S.live.map c.target))
        (t := (permuted g { S with numPi := S.numPi + S.live.length }, S.live.map c.target))
        ⟨⟨rfl, rfl, hw, by simp⟩, by simp⟩
      exact finish_permuted g c.N c.nKde idx (Rel.mono (fun _ _ h => h.1) hf)

end MultiNested

/-- **C158** for multi-nested sampling; the points drawn from the ellipsoids have the axes in the other order too. `km` stands for the clustering. -/
theorem C158_multiNested {d : ℕ} (g : Equiv.Perm (Fin d)) (c : MultiNested.Cfg d) (us : Fin c.N → Fin d → ℝ)
    (calls : List (ℕ × (ℕ → ℕ → ℕ) × ℕ × (ℕ → MultiNested.Env d) × (ℕ → ℕ))) :
    session (fun (k : ℕ × (ℕ → ℕ → ℕ) × ℕ × (ℕ → MultiNested.Env d) × (ℕ → ℕ)) =>
          MultiNested.importanceSample { c with lo := c.lo ∘ g, hi := c.hi ∘ g, target := fun x => c.target (x ∘ g.symm) }
            k.1 k.2.1 k.2.2.1 k.2.2.2.1 k.2.2.2.2)
        (fun S => (S.samples, S.weights, S.live, S.kde, S.numPi, S.numQEval, S.numQ))
        (calls.map fun k => (k.1, k.2.1, k.2.2.1,
          (fun i => ⟨(k.2.2.2.1 i).y0 ∘ g, (k.2.2.2.1 i).expired, (k.2.2.2.1 i).tries.map fun t => ⟨t.y ∘ g, t.late⟩⟩), k.2.2.2.2))
        (MultiNested.reset { c with lo := c.lo ∘ g, hi := c.hi ∘ g, target := fun x => c.target (x ∘ g.symm) } fun k => us k ∘ g) =
      session (fun (k : ℕ × (ℕ → ℕ → ℕ) × ℕ × (ℕ → MultiNested.Env d) × (ℕ → ℕ)) =>
          MultiNested.importanceSample c k.1 k.2.1 k.2.2.1 k.2.2.2.1 k.2.2.2.2)
        (fun S => (S.samples.map (· ∘ g), S.weights, S.live.map (· ∘ g), S.kde.map (List.map (· ∘ g)), S.numPi, S.numQEval, S.numQ)) calls
        (MultiNested.reset c us) :=
  session_rel (fun k : ℕ × (ℕ → ℕ → ℕ) × ℕ × (ℕ → MultiNested.Env d) × (ℕ → ℕ) =>
      (k.1, k.2.1, k.2.2.1, (fun i => (k.2.2.2.1 i).permuted g), k.2.2.2.2)) (R := Nested.PSimS g)
    (fun S => (S.samples.map (· ∘ g), S.weights, S.live.map (· ∘ g), S.kde.map (List.map (· ∘ g)), S.numPi, S.numQEval, S.numQ))
    (fun S => (S.samples, S.weights, S.live, S.kde, S.numPi, S.numQEval, S.numQ))
    (fun S S' h => by
      rw [h.1, Nested.samples_permuted g h.2]
      rfl)
    (call := fun k => MultiNested.importanceSample c k.1 k.2.1 k.2.2.1 k.2.2.2.1 k.2.2.2.2)
    (call' := fun k => MultiNested.importanceSample (c.permuted g) k.1 k.2.1 k.2.2.1 k.2.2.2.1 k.2.2.2.2)
    (fun k S S' h => MultiNested.importanceSample_permuted g c k.1 k.2.1 k.2.2.1 k.2.2.2.1 k.2.2.2.2 S S' h) calls
    (s := MultiNested.reset c us) (t := MultiNested.reset (c.permuted g) fun k => us k ∘ g) ⟨by
      unfold MultiNested.reset Nested.permuted MultiNested.Cfg.permuted
      dsimp only
      congr 1
      rw [List.map_ofFn]
      rfl, by
      intro i hi
      cases hi⟩

/-- Two axes exchanged: the live points of a new sampler are those of the other with their coordinates exchanged. -/
example : (Nested.reset (d := 2) ⟨![0, 2], ![1, 4], fun x => x 0, 1, 3⟩ fun _ => ![1, 0]).live = [![1, 2]] ∧
    (Nested.reset (d := 2) ⟨![2, 0], ![4, 1], fun x => x 1, 1, 3⟩ fun _ => ![0, 1]).live = [![2, 1]] := by
  constructor <;>
  · simp only [Nested.reset, List.ofFn_succ, List.ofFn_zero]
    congr 1
    funext i
    fin_cases i <;> norm_num

end Verif
