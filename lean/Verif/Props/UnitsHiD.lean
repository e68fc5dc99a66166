import Verif.Props.Units
import Verif.Props.ScaleHiD

/-!
# C157 for HiDaisee
-/

set_option linter.unusedSectionVars false
set_option autoImplicit false

namespace Verif
namespace HiD

section moving
variable {K : Type*} [Field K] [LinearOrder K] [IsStrictOrderedRing K] {d : ℕ} (v : Pt K d)

/-- The node with region and samples in the other units. -/
def Node.stretched (n : Node K d) : Node K d :=
  { n with center := v * n.center, radius := v * n.radius, samples := n.samples.map (List.map (v * ·)) }

/-- The tree with all nodes in the other units. -/
def Tree.stretched (T : Tree K d) : Tree K d := ⟨T.nodes.map (Node.stretched v), T.leaves⟩

/-- The sampler with regions and samples in the other units. -/
def Sampler.stretched (S : Sampler K d) : Sampler K d :=
  { S with T := S.T.stretched v, samples := S.samples.map (v * ·), model := (S.model.1.map fun r => (v * r.1, v * r.2), S.model.2) }

theorem addSample_stretched (n : Node K d) (x : Pt K d) (w : XF K) : (n.stretched v).addSample (v * x) w = (n.addSample x w).stretched v := by
  unfold Node.addSample Node.stretched
  dsimp only
  cases n.samples <;> simp

variable {v} (hv : ∀ i, 0 < v i)

include hv in
theorem prob1_stretched (n : Node K d) (x : Pt K d) :
    (n.stretched v).sampler.prob1 (v * x) = XF.fin (∏ i, v i)⁻¹ * n.sampler.prob1 x := by
  have hV : 0 < ∏ i, v i := Finset.prod_pos fun i _ => hv i
  have h : (n.stretched v).sampler.inlier (v * x) ↔ n.sampler.inlier x := by
    unfold Uniform.inlier Node.sampler Node.stretched
    refine forall_congr' fun i => ?_
    dsimp only
    rw [Pi.mul_apply, Pi.mul_apply, Pi.mul_apply, ← mul_sub, ← mul_add, mul_lt_mul_iff_right₀ (hv i), mul_le_mul_iff_right₀ (hv i)]
  unfold Uniform.prob1
  by_cases hi : n.sampler.inlier x
  · rw [if_pos hi, if_pos (h.2 hi)]
    unfold Uniform.probVal Node.sampler Node.stretched
    dsimp only
    have hp : ∏ i, (v * n.radius) i * 2 = (∏ i, v i) * ∏ i, n.radius i * 2 := by
      rw [← Finset.prod_mul_distrib]
      exact Finset.prod_congr rfl fun i _ => by rw [Pi.mul_apply, mul_assoc]
    rw [hp, XF.fin_div, XF.fin_div]
    by_cases h0 : ∏ i, n.radius i * 2 = 0
    · rw [if_pos h0, if_pos (by rw [h0, mul_zero]), XF.fin_mul_infMul (inv_pos.2 hV)]
    · rw [if_neg h0, if_neg (mul_ne_zero hV.ne' h0), XF.fin_mul]
      congr 1
      generalize (∏ i, n.radius i * 2) = w at h0 ⊢
      field_simp
  · rw [if_neg hi, if_neg (mt h.1 hi), XF.fin_mul, mul_zero]

theorem sample1_stretched (n : Node K d) (u : Pt K d) : (n.stretched v).sampler.sample1 u = v * n.sampler.sample1 u := by
  funext i
  show v i * n.center i - v i * n.radius i + (v i * n.center i + v i * n.radius i - (v i * n.center i - v i * n.radius i)) * u i =
    v i * (n.center i - n.radius i + (n.center i + n.radius i - (n.center i - n.radius i)) * u i)
  ring

theorem getElem_stretched (T : Tree K d) (i : ℕ) : (T.stretched v).nodes[i]? = T.nodes[i]?.map (Node.stretched v) := List.getElem?_map

include hv in
theorem push_stretched (p : Pt K d → XF K) (j : Fin d) (lr : Node K d × Node K d) (x : Pt K d) :
    push (fun x => XF.fin (∏ i, v i)⁻¹ * p (x / v)) j (lr.1.stretched v, lr.2.stretched v) (v * x) =
      (push p j lr x).map fun lr => (lr.1.stretched v, lr.2.stretched v) := by
  have hr : 0 < (∏ i, v i)⁻¹ := inv_pos.2 (Finset.prod_pos fun i _ => hv i)
  have h1 : (v * x) j < (lr.1.stretched v).center j + (lr.1.stretched v).radius j ↔ x j < lr.1.center j + lr.1.radius j := by
    show v j * x j < v j * _ + v j * _ ↔ _
    rw [← mul_add, mul_lt_mul_iff_right₀ (hv j)]
  have h2 : ∀ a : XF K, XF.leb (XF.fin (∏ i, v i)⁻¹ * a) (XF.fin 0) = XF.leb a (XF.fin 0) := XF.ltb_scaled hr
  unfold push
  dsimp only
  simp only [h1, prob1_stretched hv, stretch_cancel hv, XF.scale_cancel hr, h2, addSample_stretched]
  split
  · split <;> rfl
  · split <;> rfl

include hv in
theorem foldlM_stretched (p : Pt K d → XF K) (j : Fin d) : ∀ (xs : List (Pt K d)) (lr : Node K d × Node K d),
    (xs.map (v * ·)).foldlM (push (fun x => XF.fin (∏ i, v i)⁻¹ * p (x / v)) j) (lr.1.stretched v, lr.2.stretched v) =
      (xs.foldlM (push p j) lr).map fun lr => (lr.1.stretched v, lr.2.stretched v)
  | [], _ => rfl
  | x :: xs, lr => by
    rw [List.map_cons, List.foldlM_cons, List.foldlM_cons, push_stretched hv]
    cases push p j lr x with
    | error e => rfl
    | ok lr' => exact foldlM_stretched p j xs lr'

theorem children_stretched (n : Node K d) (j : Fin d) :
    children (n.stretched v) j = ((children n j).1.stretched v, (children n j).2.stretched v) := by
  have h : ∀ (c : Pt K d) (r : K), Function.update (v * c) j (v j * r) = v * Function.update c j r := by
    intro c r
    funext i
    by_cases hi : i = j
    · subst hi
      simp
    · simp [hi]
  unfold children Node.stretched Node.new
  simp only [Pi.mul_apply, mul_div_assoc, h, ← mul_sub, ← mul_add]
  simp

include hv in
theorem split_stretched (T : Tree K d) (i : ℕ) (j : Fin d) (p : Pt K d → XF K) :
    (T.stretched v).split i j (fun x => XF.fin (∏ i, v i)⁻¹ * p (x / v)) = (T.split i j p).map (Tree.stretched v) := by
  unfold Tree.split
  rw [getElem_stretched]
  cases T.nodes[i]? with
  | none => rfl
  | some n =>
    dsimp only [Option.map]
    have h1 : (n.stretched v).samples = n.samples.map (List.map (v * ·)) := rfl
    rw [h1]
    cases hs : n.samples with
    | none => rfl
    | some xs =>
      dsimp only [Option.map]
      rw [children_stretched, foldlM_stretched hv]
      cases xs.foldlM (push p j) (children n j) with
      | error e => rfl
      | ok lr =>
        show (if i ∈ T.leaves then _ else _) = _
        dsimp only
        split
        · simp only [Except.map, Tree.stretched, List.length_map, List.map_append, List.map_set, List.map_cons, List.map_nil]
          rfl
        · rfl

theorem select_stretched (T : Tree K d) (rs : ℕ → K) : ∀ (fuel k : ℕ) (P : List ℕ) (id : ℕ),
    (T.stretched v).select rs fuel k P id = T.select rs fuel k P id
  | 0, k, P, id => by
    rw [Tree.select, Tree.select]
    rfl
  | fuel + 1, k, P, id => by
    rw [Tree.select, Tree.select, getElem_stretched]
    show (if id ∈ T.leaves then _ else _) = _
    split
    · rfl
    · cases T.nodes[id]? with
      | none => rfl
      | some n =>
        dsimp only [Option.map]
        show (match n.left, n.right with
          | some l, some r => _
          | _, _ => _) = _
        cases n.left with
        | none => rfl
        | some l =>
          cases n.right with
          | none => rfl
          | some r =>
            dsimp only
            rw [getElem_stretched, getElem_stretched]
            cases T.nodes[l]? with
            | none => rfl
            | some nl =>
              cases T.nodes[r]? with
              | none => rfl
              | some nr => exact select_stretched T rs fuel (k + 1) _ _

theorem totalEv_stretched (cf : Cfg K) (t : ℕ) (T : Tree K d) : totalEv cf t (T.stretched v) = totalEv cf t T := by
  unfold totalEv
  show (T.leaves.map _).sum = _
  congr 1
  apply List.map_congr_left
  intro l _
  rw [getElem_stretched]
  cases T.nodes[l]? <;> rfl

theorem refreshQ_stretched (nodes : List (Node K d)) (i : ℕ) :
    refreshQ (nodes.map (Node.stretched v)) i = (refreshQ nodes i).map (Node.stretched v) := by
  have hq : ∀ o : Option ℕ, ((o.bind ((nodes.map (Node.stretched v))[·]?)).map Node.q) = ((o.bind (nodes[·]?)).map Node.q) := by
    intro o
    cases o with
    | none => rfl
    | some l =>
      simp only [Option.bind_some, List.getElem?_map]
      cases nodes[l]? <;> rfl
  unfold refreshQ
  apply List.ext_getElem?
  intro k
  rw [List.getElem?_map, List.getElem?_modify, List.getElem?_modify, List.getElem?_map]
  cases nodes[k]? with
  | none => rfl
  | some n =>
    simp only [Option.map_some]
    split
    · have h1 : (n.stretched v).left = n.left := rfl
      have h2 : (n.stretched v).right = n.right := rfl
      simp only [h1, h2, hq]
      rfl
    · rfl

theorem foldl_refresh_stretched (P : List ℕ) : ∀ nodes : List (Node K d),
    P.foldl refreshQ (nodes.map (Node.stretched v)) = (P.foldl refreshQ nodes).map (Node.stretched v) := by
  induction P with
  | nil => intro _; rfl
  | cons i P ih =>
    intro nodes
    rw [List.foldl_cons, List.foldl_cons, refreshQ_stretched, ih]

include hv in
theorem iterate_stretched (cf : Cfg K) (p : Pt K d → XF K) (t : ℕ) (it : Iter K d) (T : Tree K d) :
    iterate cf (fun x => XF.fin (∏ i, v i)⁻¹ * p (x / v)) t it (T.stretched v) = (iterate cf p t it T).map fun r => (r.1.stretched v, r.2) := by
  have hr : 0 < (∏ i, v i)⁻¹ := inv_pos.2 (Finset.prod_pos fun i _ => hv i)
  have h2 : ∀ a : XF K, XF.ltb (XF.fin 0) (XF.fin (∏ i, v i)⁻¹ * a) = XF.ltb (XF.fin 0) a := by
    intro a
    cases a with
    | nan => rfl
    | fin x =>
      show decide (0 < (∏ i, v i)⁻¹ * x) = decide (0 < x)
      rw [decide_eq_decide, mul_pos_iff_of_pos_left hr]
    | pinf => rw [XF.fin_mul_pinf hr]
    | ninf => rw [XF.fin_mul_ninf hr]
  unfold iterate
  have hlen : (T.stretched v).nodes.length = T.nodes.length := List.length_map _
  rw [hlen, select_stretched]
  cases T.select it.rs T.nodes.length 0 [0] 0 with
  | error e => rfl
  | ok r =>
    obtain ⟨P, id⟩ := r
    dsimp only
    rw [getElem_stretched]
    cases T.nodes[id]? with
    | none => rfl
    | some n =>
      dsimp only [Option.map]
      rw [sample1_stretched, prob1_stretched hv, stretch_cancel hv, XF.scale_cancel hr, h2, addSample_stretched]
      split
      · rfl
      · generalize n.addSample (n.sampler.sample1 it.u) (p (n.sampler.sample1 it.u) / n.sampler.prob1 (n.sampler.sample1 it.u)) = m
        have hT : (⟨(T.stretched v).nodes.set id (m.stretched v), (T.stretched v).leaves⟩ : Tree K d) = Tree.stretched v ⟨T.nodes.set id m, T.leaves⟩ := by
          simp [Tree.stretched, List.map_set]
        have hN : (m.stretched v).N = m.N := rfl
        have hmean : (m.stretched v).mean = m.mean := rfl
        rw [hT, totalEv_stretched, hN, hmean]
        generalize (m.mean + cf.boost t m.N) / totalEv cf t ⟨T.nodes.set id m, T.leaves⟩ = q
        have hset : (T.stretched v).nodes.set id { center := (m.stretched v).center, radius := (m.stretched v).radius, q := q, left := (m.stretched v).left, right := (m.stretched v).right, samples := (m.stretched v).samples, weights := (m.stretched v).weights, N := m.N, ess := (m.stretched v).ess } =
            (T.nodes.set id { m with q := q }).map (Node.stretched v) := by
          simp only [Tree.stretched, List.map_set]
          rfl
        rw [hset, foldl_refresh_stretched]
        have hT2 : (⟨(P.dropLast.reverse.foldl refreshQ (T.nodes.set id { m with q := q })).map (Node.stretched v), (T.stretched v).leaves⟩ : Tree K d) =
          Tree.stretched v ⟨P.dropLast.reverse.foldl refreshQ (T.nodes.set id { m with q := q }), T.leaves⟩ := rfl
        rw [hT2, split_stretched hv]
        show (if cf.nMin ≤ m.N ∧ XF.ltb m.ess (XF.fin (cf.essTarget * m.N)) = true then _ else _) = _
        by_cases hif : cf.nMin ≤ m.N ∧ XF.ltb m.ess (XF.fin (cf.essTarget * m.N)) = true
        · rw [if_pos hif, if_pos hif]
          generalize Tree.split _ id it.j p = r
          cases r <;> rfl
        · rw [if_neg hif, if_neg hif]
          rfl

include hv in
theorem iterations_stretched (cf : Cfg K) (p : Pt K d → XF K) : ∀ (its : List (Iter K d)) (t : ℕ) (S : Sampler K d),
    iterations cf (fun x => XF.fin (∏ i, v i)⁻¹ * p (x / v)) t its (S.stretched v) = (iterations cf p t its S).map (Sampler.stretched v)
  | [], _, _ => rfl
  | it :: its, t, S => by
    unfold iterations
    have hT : (S.stretched v).T = S.T.stretched v := rfl
    rw [hT, iterate_stretched hv]
    cases iterate cf p t it S.T with
    | error e => rfl
    | ok r => exact iterations_stretched cf p its (t + 1) { S with T := r.1, numQ := S.numQ + 1, numPi := S.numPi + r.2, numQEval := S.numQEval + r.2 }

theorem leafNodes_stretched (T : Tree K d) : (T.stretched v).leafNodes = T.leafNodes.map (Node.stretched v) := by
  unfold Tree.leafNodes
  rw [List.map_filterMap]
  congr 1
  funext i
  exact getElem_stretched T i

include hv in
theorem call_stretched (cf : Cfg K) (p : Pt K d → XF K) (n : ℕ) (its : ℕ → Iter K d) (S : Sampler K d) :
    importanceSample cf (fun x => XF.fin (∏ i, v i)⁻¹ * p (x / v)) n its (S.stretched v) = (importanceSample cf p n its S).map (Sampler.stretched v) := by
  have hl : (S.stretched v).samples.length = S.samples.length := List.length_map _
  unfold importanceSample
  rw [hl, iterations_stretched hv]
  cases iterations cf p S.samples.length ((List.range (n - S.samples.length)).map its) S with
  | error e => rfl
  | ok S1 =>
    have hm : (S1.stretched v).T.leafNodes = S1.T.leafNodes.map (Node.stretched v) := leafNodes_stretched S1.T
    have hw : ((S1.T.leafNodes.map (Node.stretched v)).map Node.mean) = (S1.T.leafNodes.map Node.mean) := by
      rw [List.map_map]
      exact List.map_congr_left fun n _ => rfl
    have hg : ∀ (r : List (Pt K d × Pt K d) × List (XF K)), getSamples { S1.stretched v with model := (r.1.map fun r => (v * r.1, v * r.2), r.2) } =
        (getSamples { S1 with model := r }).stretched v := by
      intro r
      unfold getSamples Sampler.stretched
      dsimp only
      rw [leafNodes_stretched, List.flatMap_map, List.flatMap_map, List.map_flatMap]
      congr 2
      funext n
      show ((n.samples.map (List.map (v * ·))).getD []) = _
      cases n.samples <;> rfl
    simp only [Except.map, updateModel]
    rw [hm, hw, List.length_map]
    cases setWeights S1.T.leafNodes.length (S1.T.leafNodes.map Node.mean) with
    | error e => rfl
    | ok w =>
      dsimp only
      congr 1
      rw [← hg]
      dsimp only
      rw [List.map_map, List.map_map]
      rfl

theorem reset_stretched (lo hi : Pt K d) : reset (v * lo) (v * hi) = (reset lo hi).stretched v := by
  have h1 : (fun i => ((v * hi) i + (v * lo) i) / 2 : Pt K d) = v * (fun i => (hi i + lo i) / 2) := by
    funext i
    simp only [Pi.mul_apply]
    ring
  have h2 : (fun i => ((v * hi) i - (v * lo) i) / 2 : Pt K d) = v * (fun i => (hi i - lo i) / 2) := by
    funext i
    simp only [Pi.mul_apply]
    ring
  unfold reset Tree.init
  rw [h1, h2]
  rfl

end moving
end HiD

/-- **C157** for HiDaisee: any number of calls after the construction. -/
theorem C157_hidaisee {K : Type*} [Field K] [LinearOrder K] [IsStrictOrderedRing K] {d : ℕ} (v : Pt K d) (hv : ∀ i, 0 < v i) (cf : HiD.Cfg K)
    (p : Pt K d → XF K) (lo hi : Pt K d) (calls : List (ℕ × (ℕ → HiD.Iter K d))) :
    (calls.foldlM (fun S a => HiD.importanceSample cf (fun x => XF.fin (∏ i, v i)⁻¹ * p (x / v)) a.1 a.2 S) (HiD.reset (v * lo) (v * hi))).map
        (fun S => (S.samples, S.weights, S.model, S.numPi, S.numQEval, S.numQ)) =
      (calls.foldlM (fun S a => HiD.importanceSample cf p a.1 a.2 S) (HiD.reset lo hi)).map
        fun S => (S.samples.map (v * ·), S.weights, (S.model.1.map (fun r => (v * r.1, v * r.2)), S.model.2), S.numPi, S.numQEval, S.numQ) := by
  rw [HiD.reset_stretched]
  generalize HiD.reset lo hi = S
  induction calls generalizing S with
  | nil => rfl
  | cons a calls ih =>
    rw [List.foldlM_cons, List.foldlM_cons, HiD.call_stretched hv]
    cases HiD.importanceSample cf p a.1 a.2 S with
    | error e => rfl
    | ok S' => exact ih S'

/-- The runs of the theorem can be successful calls with several splits (the run of `C151_refuted`), here in metres and in millimetres. -/
example : ∃ (its : ℕ → HiD.Iter ℝ 1) (S S' : HiD.Sampler ℝ 1),
    HiD.importanceSample ⟨HiD.realBoost 1, 1, 3/5⟩ (fun x => .fin (HiD.stepDensity x)) 4 its (HiD.reset ![-1] ![1]) = .ok S ∧
    HiD.importanceSample ⟨HiD.realBoost 1, 1, 3/5⟩ (fun x => XF.fin (∏ i, ![(1000 : ℝ)] i)⁻¹ * .fin (HiD.stepDensity (x / ![1000]))) 4 its
      (HiD.reset (![1000] * ![-1]) (![1000] * ![1])) = .ok S' ∧
    S'.samples = S.samples.map (![1000] * ·) ∧ S'.weights = S.weights ∧ S.samples.length = 4 := by
  obtain ⟨its, S, -, h, -, hS, -⟩ := HiD.C151_refuted 1 one_pos
  have hv : ∀ i, 0 < (![1000] : Fin 1 → ℝ) i := by
    intro i
    fin_cases i
    norm_num
  have h' := HiD.call_stretched hv ⟨HiD.realBoost 1, 1, 3/5⟩ (fun x => .fin (HiD.stepDensity x)) 4 its (HiD.reset ![-1] ![1])
  rw [h, ← HiD.reset_stretched] at h'
  exact ⟨its, S, _, h, h', rfl, rfl, by rw [hS]; rfl⟩

end Verif
