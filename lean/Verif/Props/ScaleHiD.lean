import Verif.Props.Scale
import Verif.Props.HiDaiseeWeights

/-!
# C151 for HiDaisee

The exploration bonus `sigma * sqrt(log t / N)` is added to an estimate on the scale of the target.
-/

set_option linter.unusedSectionVars false
set_option autoImplicit false

namespace Verif
namespace HiD

section scaling
variable {K : Type*} [Field K] [LinearOrder K] [IsStrictOrderedRing K] {d : ℕ} {c : K}

theorem XF_mul_mul (hc : 0 < c) (a b : XF K) : (XF.fin c * a) * (XF.fin c * b) = XF.fin (c * c) * (a * b) := by
  have hcc := mul_pos hc hc
  have hn : ∀ x : K, (XF.pinf * XF.fin (c * x) : XF K) = XF.infMul x := fun x => XF.scale_infMul hc x
  cases a with
  | nan => simp
  | fin x =>
    cases b with
    | nan => simp
    | fin y => simp only [XF.fin_mul]; congr 1; ring
    | pinf =>
      rw [XF.fin_mul_pinf hc, XF.fin_mul]
      show XF.infMul (c * x) = XF.fin (c * c) * XF.infMul x
      rw [XF.scale_infMul hc, XF.fin_mul_infMul hcc]
    | ninf =>
      rw [XF.fin_mul_ninf hc, XF.fin_mul]
      show XF.neg (XF.infMul (c * x)) = XF.fin (c * c) * XF.neg (XF.infMul x)
      rw [XF.scale_infMul hc]
      unfold XF.infMul
      split
      · exact (XF.fin_mul_ninf hcc).symm
      · split
        · exact (XF.fin_mul_pinf hcc).symm
        · rfl
  | pinf =>
    rw [XF.fin_mul_pinf hc]
    cases b with
    | nan => simp
    | fin y =>
      rw [XF.fin_mul]
      show XF.infMul (c * y) = XF.fin (c * c) * XF.infMul y
      rw [XF.scale_infMul hc, XF.fin_mul_infMul hcc]
    | pinf => rw [XF.fin_mul_pinf hc]; exact (XF.fin_mul_pinf hcc).symm
    | ninf => rw [XF.fin_mul_ninf hc]; exact (XF.fin_mul_ninf hcc).symm
  | ninf =>
    rw [XF.fin_mul_ninf hc]
    cases b with
    | nan => simp
    | fin y =>
      rw [XF.fin_mul]
      show XF.neg (XF.infMul (c * y)) = XF.fin (c * c) * XF.neg (XF.infMul y)
      rw [XF.scale_infMul hc]
      unfold XF.infMul
      split
      · exact (XF.fin_mul_ninf hcc).symm
      · split
        · exact (XF.fin_mul_pinf hcc).symm
        · rfl
    | pinf => rw [XF.fin_mul_pinf hc]; exact (XF.fin_mul_ninf hcc).symm
    | ninf => rw [XF.fin_mul_ninf hc]; exact (XF.fin_mul_pinf hcc).symm

/-- The node with all weights multiplied by `c`. -/
def Node.scaled (c : K) (n : Node K d) : Node K d := { n with weights := n.weights.map fun w => XF.fin c * w }

/-- The tree with all weights multiplied by `c`. -/
def Tree.scaled (c : K) (T : Tree K d) : Tree K d := ⟨T.nodes.map (Node.scaled c), T.leaves⟩

/-- The sampler with all weights multiplied by `c`. -/
def Sampler.scaled (c : K) (S : Sampler K d) : Sampler K d :=
  { S with T := S.T.scaled c, weights := S.weights.map fun w => XF.fin c * w }

theorem ess_scaled (hc : 0 < c) (ws : List (XF K)) :
    ((ws.map fun w => XF.fin c * w).sum * (ws.map fun w => XF.fin c * w).sum) / ((ws.map fun w => XF.fin c * w).map fun w => w * w).sum =
      (ws.sum * ws.sum) / (ws.map fun w => w * w).sum := by
  have h : ((ws.map fun w => XF.fin c * w).map fun w => w * w) = (ws.map fun w => w * w).map fun w => XF.fin (c * c) * w := by
    rw [List.map_map, List.map_map]
    apply List.map_congr_left
    intro w _
    exact XF_mul_mul hc w w
  rw [h, XF.scale_sum (mul_pos hc hc), XF.scale_sum hc, XF_mul_mul hc, XF.scale_cancel (mul_pos hc hc)]

theorem addSample_scaled (hc : 0 < c) (n : Node K d) (x : Pt K d) (w : XF K) :
    (n.scaled c).addSample x (XF.fin c * w) = (n.addSample x w).scaled c := by
  have h := ess_scaled hc (n.weights ++ [w])
  rw [List.map_append, List.map_cons, List.map_nil] at h
  unfold Node.addSample Node.scaled
  dsimp only
  rw [h]
  simp

theorem mean_scaled (hc : 0 < c) (n : Node K d) : (n.scaled c).mean = XF.fin c * n.mean := by
  unfold Node.mean Node.scaled
  dsimp only
  rw [XF.scale_sum hc, List.length_map, XF.scale_div hc]

theorem getElem_scaled (T : Tree K d) (i : ℕ) : (T.scaled c).nodes[i]? = T.nodes[i]?.map (Node.scaled c) := List.getElem?_map

theorem push_scaled (hc : 0 < c) (p : Pt K d → XF K) (j : Fin d) (lr : Node K d × Node K d) (x : Pt K d) :
    push (fun x => XF.fin c * p x) j (lr.1.scaled c, lr.2.scaled c) x =
      (push p j lr x).map fun lr => (lr.1.scaled c, lr.2.scaled c) := by
  have hs : ∀ n : Node K d, (n.scaled c).sampler = n.sampler := fun _ => rfl
  have h1 : (lr.1.scaled c).center = lr.1.center := rfl
  have h2 : (lr.1.scaled c).radius = lr.1.radius := rfl
  unfold push
  dsimp only
  rw [hs, hs, h1, h2]
  split
  · split
    · rfl
    · rw [XF.scale_div hc, addSample_scaled hc]
      rfl
  · split
    · rfl
    · rw [XF.scale_div hc, addSample_scaled hc]
      rfl

theorem foldlM_scaled (hc : 0 < c) (p : Pt K d → XF K) (j : Fin d) : ∀ (xs : List (Pt K d)) (lr : Node K d × Node K d),
    xs.foldlM (push (fun x => XF.fin c * p x) j) (lr.1.scaled c, lr.2.scaled c) =
      (xs.foldlM (push p j) lr).map fun lr => (lr.1.scaled c, lr.2.scaled c)
  | [], _ => rfl
  | x :: xs, lr => by
    rw [List.foldlM_cons, List.foldlM_cons, push_scaled hc]
    cases push p j lr x with
    | error e => rfl
    | ok lr' => exact foldlM_scaled hc p j xs lr'

theorem split_scaled (hc : 0 < c) (T : Tree K d) (i : ℕ) (j : Fin d) (p : Pt K d → XF K) :
    (T.scaled c).split i j (fun x => XF.fin c * p x) = (T.split i j p).map (Tree.scaled c) := by
  unfold Tree.split
  rw [getElem_scaled]
  cases T.nodes[i]? with
  | none => rfl
  | some n =>
    dsimp only [Option.map]
    have h1 : (n.scaled c).samples = n.samples := rfl
    rw [h1]
    cases n.samples with
    | none => rfl
    | some xs =>
      dsimp only
      have h2 : children (n.scaled c) j = ((children n j).1.scaled c, (children n j).2.scaled c) := rfl
      rw [h2, foldlM_scaled hc]
      cases xs.foldlM (push p j) (children n j) with
      | error e => rfl
      | ok lr =>
        show (if i ∈ T.leaves then _ else _) = _
        dsimp only
        split
        · simp only [Except.map, Tree.scaled, List.length_map, List.map_append, List.map_set, List.map_cons, List.map_nil]
          rfl
        · rfl

theorem select_scaled (T : Tree K d) (rs : ℕ → K) : ∀ (fuel k : ℕ) (P : List ℕ) (id : ℕ),
    (T.scaled c).select rs fuel k P id = T.select rs fuel k P id
  | 0, k, P, id => by
    rw [Tree.select, Tree.select]
    rfl
  | fuel + 1, k, P, id => by
    rw [Tree.select, Tree.select, getElem_scaled]
    show (if id ∈ T.leaves then _ else _) = _
    split
    · rfl
    · cases T.nodes[id]? with
      | none => rfl
      | some n =>
        dsimp only [Option.map]
        show (match n.left, n.right with
          | some l, some r => _
          | _, _ => _) = _
        cases n.left with
        | none => rfl
        | some l =>
          cases n.right with
          | none => rfl
          | some r =>
            dsimp only
            rw [getElem_scaled, getElem_scaled]
            cases T.nodes[l]? with
            | none => rfl
            | some nl =>
              cases T.nodes[r]? with
              | none => rfl
              | some nr => exact select_scaled T rs fuel (k + 1) _ _

theorem totalEv_scaled (hc : 0 < c) (cf : Cfg K) (t : ℕ) (T : Tree K d) :
    totalEv { cf with boost := fun t N => XF.fin c * cf.boost t N } t (T.scaled c) = XF.fin c * totalEv cf t T := by
  unfold totalEv
  rw [← XF.scale_sum hc, List.map_map]
  congr 1
  apply List.map_congr_left
  intro l _
  rw [getElem_scaled]
  simp only [Function.comp]
  cases T.nodes[l]? with
  | none => simp
  | some n =>
    show (if 0 < n.N then (n.scaled c).mean + XF.fin c * cf.boost t n.N else XF.fin 0) = XF.fin c * if 0 < n.N then n.mean + cf.boost t n.N else XF.fin 0
    split
    · rw [mean_scaled hc, XF.scale_add hc]
    · simp

theorem refreshQ_scaled (nodes : List (Node K d)) (i : ℕ) :
    refreshQ (nodes.map (Node.scaled c)) i = (refreshQ nodes i).map (Node.scaled c) := by
  have hq : ∀ o : Option ℕ, ((o.bind ((nodes.map (Node.scaled c))[·]?)).map Node.q) = ((o.bind (nodes[·]?)).map Node.q) := by
    intro o
    cases o with
    | none => rfl
    | some l =>
      simp only [Option.bind_some, List.getElem?_map]
      cases nodes[l]? <;> rfl
  unfold refreshQ
  apply List.ext_getElem?
  intro k
  rw [List.getElem?_map, List.getElem?_modify, List.getElem?_modify, List.getElem?_map]
  cases nodes[k]? with
  | none => rfl
  | some n =>
    simp only [Option.map_some]
    split
    · have h1 : (n.scaled c).left = n.left := rfl
      have h2 : (n.scaled c).right = n.right := rfl
      simp only [h1, h2, hq]
      rfl
    · rfl

theorem foldl_refresh_scaled (P : List ℕ) : ∀ nodes : List (Node K d),
    P.foldl refreshQ (nodes.map (Node.scaled c)) = (P.foldl refreshQ nodes).map (Node.scaled c) := by
  induction P with
  | nil => intro _; rfl
  | cons i P ih =>
    intro nodes
    rw [List.foldl_cons, List.foldl_cons, refreshQ_scaled, ih]

theorem iterate_scaled (hc : 0 < c) (cf : Cfg K) (p : Pt K d → XF K) (t : ℕ) (it : Iter K d) (T : Tree K d) :
    iterate { cf with boost := fun t N => XF.fin c * cf.boost t N } (fun x => XF.fin c * p x) t it (T.scaled c) =
      (iterate cf p t it T).map fun r => (r.1.scaled c, r.2) := by
  unfold iterate
  have hlen : (T.scaled c).nodes.length = T.nodes.length := List.length_map _
  rw [hlen, select_scaled]
  cases T.select it.rs T.nodes.length 0 [0] 0 with
  | error e => rfl
  | ok r =>
    obtain ⟨P, id⟩ := r
    dsimp only
    rw [getElem_scaled]
    cases T.nodes[id]? with
    | none => rfl
    | some n =>
      dsimp only [Option.map]
      have hs : (n.scaled c).sampler = n.sampler := rfl
      rw [hs]
      split
      · rfl
      · rw [XF.scale_div hc, addSample_scaled hc]
        generalize n.addSample (n.sampler.sample1 it.u) (p (n.sampler.sample1 it.u) / n.sampler.prob1 (n.sampler.sample1 it.u)) = m
        have hT : (⟨(T.scaled c).nodes.set id (m.scaled c), (T.scaled c).leaves⟩ : Tree K d) = Tree.scaled c ⟨T.nodes.set id m, T.leaves⟩ := by
          simp [Tree.scaled, List.map_set]
        rw [hT, totalEv_scaled hc, mean_scaled hc]
        have hN : (m.scaled c).N = m.N := rfl
        rw [hN, ← XF.scale_add hc, XF.scale_cancel hc]
        generalize (m.mean + cf.boost t m.N) / totalEv cf t ⟨T.nodes.set id m, T.leaves⟩ = q
        have hset : (T.scaled c).nodes.set id { center := (m.scaled c).center, radius := (m.scaled c).radius, q := q, left := (m.scaled c).left, right := (m.scaled c).right, samples := (m.scaled c).samples, weights := (m.scaled c).weights, N := m.N, ess := (m.scaled c).ess } =
            (T.nodes.set id { m with q := q }).map (Node.scaled c) := by
          simp only [Tree.scaled, List.map_set]
          rfl
        rw [hset, foldl_refresh_scaled]
        have hT2 : (⟨(P.dropLast.reverse.foldl refreshQ (T.nodes.set id { m with q := q })).map (Node.scaled c), (T.scaled c).leaves⟩ : Tree K d) =
          Tree.scaled c ⟨P.dropLast.reverse.foldl refreshQ (T.nodes.set id { m with q := q }), T.leaves⟩ := rfl
        rw [hT2, split_scaled hc]
        show (if cf.nMin ≤ m.N ∧ XF.ltb m.ess (XF.fin (cf.essTarget * m.N)) = true then _ else _) = _
        by_cases hif : cf.nMin ≤ m.N ∧ XF.ltb m.ess (XF.fin (cf.essTarget * m.N)) = true
        · rw [if_pos hif, if_pos hif]
          generalize Tree.split _ id it.j p = r
          cases r <;> rfl
        · rw [if_neg hif, if_neg hif]
          rfl

theorem iterations_scaled (hc : 0 < c) (cf : Cfg K) (p : Pt K d → XF K) : ∀ (its : List (Iter K d)) (t : ℕ) (S : Sampler K d),
    iterations { cf with boost := fun t N => XF.fin c * cf.boost t N } (fun x => XF.fin c * p x) t its (S.scaled c) =
      (iterations cf p t its S).map (Sampler.scaled c)
  | [], _, _ => rfl
  | it :: its, t, S => by
    unfold iterations
    have hT : (S.scaled c).T = S.T.scaled c := rfl
    rw [hT, iterate_scaled hc]
    cases iterate cf p t it S.T with
    | error e => rfl
    | ok r => exact iterations_scaled hc cf p its (t + 1) { S with T := r.1, numQ := S.numQ + 1, numPi := S.numPi + r.2, numQEval := S.numQEval + r.2 }

theorem XF.ltb_scaled (hc : 0 < c) (a : XF K) : XF.leb (XF.fin c * a) 0 = XF.leb a 0 := by
  cases a with
  | nan => rfl
  | fin x =>
    show decide (c * x ≤ 0) = decide (x ≤ 0)
    rw [decide_eq_decide, mul_nonpos_iff_pos_imp_nonpos]
    constructor
    · intro h; exact h.1 hc
    · intro h; exact ⟨fun _ => h, fun _ => hc.le⟩
  | pinf => rw [XF.fin_mul_pinf hc]
  | ninf => rw [XF.fin_mul_ninf hc]

theorem badWeight_scaled (hc : 0 < c) (a : XF K) : badWeight (XF.fin c * a) = badWeight a := by
  have h := XF.ltb_scaled hc a
  cases a with
  | nan => rfl
  | fin x => exact h
  | pinf => rw [XF.fin_mul_pinf hc]
  | ninf => rw [XF.fin_mul_ninf hc]

theorem cleanWeights_scaled (hc : 0 < c) (ws : List (XF K)) :
    cleanWeights (ws.map fun w => XF.fin c * w) = (cleanWeights ws).map fun w => XF.fin c * w := by
  unfold cleanWeights maskSet
  rw [List.map_map, List.map_map]
  apply List.map_congr_left
  intro w _
  simp only [Function.comp, badWeight_scaled hc]
  split
  · show (0 : XF K) = XF.fin c * XF.fin 0
    simp
  · rfl

theorem sum_clean : ∀ ws : List (XF K), (∀ w ∈ ws, w = XF.fin 0 ∨ (∃ x, 0 < x ∧ w = XF.fin x) ∨ w = XF.pinf) →
    (ws.sum = XF.fin 0 ∧ ∀ w ∈ ws, w = XF.fin 0) ∨ (∃ x, 0 < x ∧ ws.sum = XF.fin x) ∨ ws.sum = XF.pinf
  | [], _ => Or.inl ⟨rfl, by simp⟩
  | w :: ws, h => by
    rw [List.sum_cons]
    have ih := sum_clean ws fun w hw => h w (List.mem_cons_of_mem _ hw)
    rcases h w List.mem_cons_self with rfl | ⟨x, hx, rfl⟩ | rfl
    · rcases ih with ⟨h1, h2⟩ | ⟨y, hy, h1⟩ | h1
      · left
        rw [h1]
        refine ⟨by simp, ?_⟩
        intro v hv
        rcases List.mem_cons.1 hv with rfl | hv
        · rfl
        · exact h2 v hv
      · right; left
        exact ⟨y, hy, by rw [h1]; simp⟩
      · right; right; rw [h1]; rfl
    · right
      rcases ih with ⟨h1, h2⟩ | ⟨y, hy, h1⟩ | h1
      · left; exact ⟨x, hx, by rw [h1]; simp⟩
      · left; exact ⟨x + y, add_pos hx hy, by rw [h1]; simp⟩
      · right; rw [h1]; rfl
    · right; right
      rcases ih with ⟨h1, h2⟩ | ⟨y, hy, h1⟩ | h1
      · rw [h1]; rfl
      · rw [h1]; rfl
      · rw [h1]; rfl

theorem clean_cases (ws : List (XF K)) : ∀ w ∈ cleanWeights ws, w = XF.fin 0 ∨ (∃ x, 0 < x ∧ w = XF.fin x) ∨ w = XF.pinf := by
  intro w hw
  unfold cleanWeights maskSet at hw
  obtain ⟨v, -, rfl⟩ := List.mem_map.1 hw
  by_cases hb : badWeight v = true
  · rw [if_pos hb]; exact Or.inl rfl
  · rw [if_neg hb]
    right
    cases v with
    | nan => exact absurd rfl hb
    | fin x =>
      left
      refine ⟨x, ?_, rfl⟩
      by_contra hx
      exact hb (decide_eq_true (not_lt.1 hx))
    | pinf => exact Or.inr rfl
    | ninf => exact absurd rfl hb

theorem normWeights_scaled (hc : 0 < c) (ws : List (XF K)) :
    normWeights (cleanWeights (ws.map fun w => XF.fin c * w)) = normWeights (cleanWeights ws) := by
  rw [cleanWeights_scaled hc]
  unfold normWeights
  rw [XF.scale_sum hc, XF.ltb_scaled hc]
  split
  · rename_i hle
    have h0 : ∀ w ∈ cleanWeights ws, w = XF.fin 0 := by
      rcases sum_clean _ (clean_cases ws) with ⟨-, h⟩ | ⟨x, hx, h⟩ | h
      · exact h
      · rw [h] at hle
        exact absurd (of_decide_eq_true hle) (not_le.2 hx)
      · rw [h] at hle
        cases hle
    conv_rhs => rw [← List.map_id (cleanWeights ws)]
    apply List.map_congr_left
    intro w hw
    rw [h0 w hw]
    simp
  · rw [List.map_map]
    apply List.map_congr_left
    intro w _
    exact XF.scale_cancel hc _ _

theorem leafNodes_scaled (T : Tree K d) : (T.scaled c).leafNodes = T.leafNodes.map (Node.scaled c) := by
  unfold Tree.leafNodes
  rw [List.map_filterMap]
  congr 1
  funext i
  exact getElem_scaled T i

theorem call_scaled (hc : 0 < c) (cf : Cfg K) (p : Pt K d → XF K) (n : ℕ) (its : ℕ → Iter K d) (S : Sampler K d) :
    importanceSample { cf with boost := fun t N => XF.fin c * cf.boost t N } (fun x => XF.fin c * p x) n its (S.scaled c) =
      (importanceSample cf p n its S).map (Sampler.scaled c) := by
  have hl : (S.scaled c).samples = S.samples := rfl
  unfold importanceSample
  rw [hl, iterations_scaled hc]
  cases iterations cf p S.samples.length ((List.range (n - S.samples.length)).map its) S with
  | error e => rfl
  | ok S1 =>
    have hm : (S1.scaled c).T.leafNodes = S1.T.leafNodes.map (Node.scaled c) := leafNodes_scaled S1.T
    have hw : ((S1.T.leafNodes.map (Node.scaled c)).map Node.mean) = (S1.T.leafNodes.map Node.mean).map fun w => XF.fin c * w := by
      rw [List.map_map, List.map_map]
      exact List.map_congr_left fun n _ => mean_scaled hc n
    simp only [Except.map, updateModel, setWeights, List.length_map, if_true]
    rw [hm, hw, normWeights_scaled hc]
    congr 1
    unfold getSamples Sampler.scaled
    dsimp only
    rw [leafNodes_scaled, List.flatMap_map, List.flatMap_map, List.map_flatMap, List.map_map]
    rfl

/-- What a caller sees of the sampler: samples, weights, regions and weights of the reported density, number of evaluations. -/
def Sampler.seen (S : Sampler K d) :
    List (Pt K d) × List (XF K) × (List (Pt K d × Pt K d) × List (XF K)) × ℕ := (S.samples, S.weights, S.model, S.numPi)

/-- **C151** for HiDaisee (partial: the exploration constant has to be scaled with the target). Any number of calls after the
construction, for a target multiplied by `c` and an exploration bonus multiplied by `c`, with the same random outcomes: the same
samples in the same order, the same reported density, the same number of evaluations, weights multiplied by `c`, and an exception
in one run if and only if the same one in the other. -/
theorem C151_hidaisee_partial (hc : 0 < c) (cf : Cfg K) (p : Pt K d → XF K) (lo hi : Pt K d) (calls : List (ℕ × (ℕ → Iter K d))) :
    (calls.foldlM (fun S a => importanceSample { cf with boost := fun t N => XF.fin c * cf.boost t N } (fun x => XF.fin c * p x) a.1 a.2 S)
        (reset lo hi)).map Sampler.seen =
      (calls.foldlM (fun S a => importanceSample cf p a.1 a.2 S) (reset lo hi)).map
        fun S => (S.samples, S.weights.map (fun w => XF.fin c * w), S.model, S.numPi) := by
  have key : ∀ (calls : List (ℕ × (ℕ → Iter K d))) (S : Sampler K d),
      (calls.foldlM (fun S a => importanceSample { cf with boost := fun t N => XF.fin c * cf.boost t N } (fun x => XF.fin c * p x) a.1 a.2 S)
        (S.scaled c)).map Sampler.seen =
      (calls.foldlM (fun S a => importanceSample cf p a.1 a.2 S) S).map
        fun S => (S.samples, S.weights.map (fun w => XF.fin c * w), S.model, S.numPi) := by
    intro calls
    induction calls with
    | nil => intro S; rfl
    | cons a calls ih =>
      intro S
      rw [List.foldlM_cons, List.foldlM_cons, call_scaled hc]
      cases importanceSample cf p a.1 a.2 S with
      | error e => rfl
      | ok S' => exact ih S'
  exact key calls (reset lo hi)

end scaling

/-! ### Refutation -/

section refuted

/-- `n_min = 1` and `ess_target = 0.6`. -/
noncomputable def cfg' (σ : ℝ) : Cfg ℝ := ⟨realBoost σ, 1, 3/5⟩

theorem cfg'_two (σ : ℝ) : cfg' (2 * σ) = { cfg' σ with boost := fun t N => XF.fin 2 * (cfg' σ).boost t N } := by
  have h : realBoost (2 * σ) = fun t N => XF.fin 2 * realBoost σ t N := by
    funext t N
    unfold realBoost
    split
    · rfl
    · rw [XF.fin_mul]; congr 1; ring
  unfold cfg'
  rw [h]

theorem step1' (σ : ℝ) : iterate (cfg' σ) tgt 0 ⟨fun _ => 0, ![1/8], 0⟩ (Tree.init ![-1] ![1] : Tree ℝ 1) = .ok (T1, 1) := by
  rw [init_eq]
  have hp : ∀ q l rr s w N e, (nd 0 1 q l rr s w N e).sampler.prob1 ![-3/4] = XF.fin (1/2) := fun q l rr s w N e => by
    rw [nd_prob] <;> norm_num
  have hx : ∀ q l rr s w N e, (nd 0 1 q l rr s w N e).sampler.sample1 ![1/8] = ![-3/4] := fun q l rr s w N e => by
    rw [nd_sample]; norm_num
  have ht : tgt ![-3/4] = XF.fin 1 := by norm_num [tgt]
  unfold iterate Tree.select
  simp only [List.mem_singleton, if_true, List.getElem?_cons_zero, hx, hp, ht, nd_add]
  norm_num [XF.ltb, XF.fin_div, cfg', realBoost, T1, nd]

theorem step2' (σ : ℝ) : iterate (cfg' σ) tgt 1 ⟨fun _ => 0, ![1/16], 0⟩ T1 = .ok (T2, 3) := by
  have hp : ∀ q l rr s w N e, (nd (0) (1) q l rr s w N e).sampler.prob1 ![-7/8] = XF.fin (1/2) := fun q l rr s w N e => by
    rw [nd_prob] <;> norm_num
  have hx : ∀ q l rr s w N e, (nd (0) (1) q l rr s w N e).sampler.sample1 ![1/16] = ![-7/8] := fun q l rr s w N e => by
    rw [nd_sample]; norm_num
  have hsp := split2
  unfold iterate Tree.select T1
  simp only [List.mem_singleton, if_true, List.getElem?_cons_zero, hx, hp, tgt_b, nd_add]
  norm_num [XF.ltb, XF.fin_div, cfg', realBoost, totalEv, nd, Node.mean] at hsp ⊢
  rw [hsp]
  rfl

/-- Mass of the right half after the third sample. -/
noncomputable def qr (σ : ℝ) : ℝ := (1 + σ * √(Real.log 2)) / (1 / 2 + σ * √(Real.log 2 / 2) + (1 + σ * √(Real.log 2)))

theorem step3' (σ : ℝ) (hσ : 0 ≤ σ) : ∃ q, iterate (cfg' σ) tgt 2 ⟨fun _ => 1, ![1/2], 0⟩ T2 = .ok (T3r q (XF.fin (qr σ)), 1) := by
  have hp : ∀ q l rr s w N e, (nd (1/2) (1/2) q l rr s w N e).sampler.prob1 ![1/2] = XF.fin (1) := fun q l rr s w N e => by
    rw [nd_prob] <;> norm_num
  have hx : ∀ q l rr s w N e, (nd (1/2) (1/2) q l rr s w N e).sampler.sample1 ![1/2] = ![1/2] := fun q l rr s w N e => by
    rw [nd_sample]; norm_num
  have ht : tgt ![1/2] = XF.fin 1 := by norm_num [tgt]
  have hsel : T2.select (fun _ => 1) 3 0 [0] 0 = .ok ([0, 0], 2) := by
    norm_num [Tree.select, T2, nd, XF.fin_div, XF.ltb]
  have hpos : (1 / 2 + σ * √(Real.log 2 / 2) + (1 + σ * √(Real.log 2))) ≠ 0 := by positivity
  have hq : ((nd (1/2) (1/2) (XF.fin (1/2)) none none (some [![1/2]]) [XF.fin 1] 1 (XF.fin 1)).mean + (cfg' σ).boost 2 1) /
      totalEv (cfg' σ) 2 ⟨[nd 0 1 (XF.fin 1) (some 1) (some 2) none [XF.fin 2, XF.fin 0] 2 (XF.fin 1),
        nd (-1/2) (1/2) (XF.fin (1/2)) none none (some [![-3/4], ![-7/8]]) [XF.fin 1, XF.fin 0] 2 (XF.fin 1),
        nd (1/2) (1/2) (XF.fin (1/2)) none none (some [![1/2]]) [XF.fin 1] 1 (XF.fin 1)], [1, 2]⟩ = XF.fin (qr σ) := by
    have h1 : (nd (1/2) (1/2) (XF.fin (1/2)) none none (some [![1/2]]) [XF.fin 1] 1 (XF.fin 1)).mean = XF.fin 1 := by
      norm_num [Node.mean, nd, XF.fin_div]
    have h2 : (nd (-1/2) (1/2) (XF.fin (1/2)) none none (some [![-3/4], ![-7/8]]) [XF.fin 1, XF.fin 0] 2 (XF.fin 1)).mean = XF.fin (1/2) := by
      norm_num [Node.mean, nd, XF.fin_div]
    have ht : totalEv (cfg' σ) 2 ⟨[nd 0 1 (XF.fin 1) (some 1) (some 2) none [XF.fin 2, XF.fin 0] 2 (XF.fin 1),
        nd (-1/2) (1/2) (XF.fin (1/2)) none none (some [![-3/4], ![-7/8]]) [XF.fin 1, XF.fin 0] 2 (XF.fin 1),
        nd (1/2) (1/2) (XF.fin (1/2)) none none (some [![1/2]]) [XF.fin 1] 1 (XF.fin 1)], [1, 2]⟩ =
        XF.fin (1 / 2 + σ * √(Real.log 2 / 2) + (1 + σ * √(Real.log 2))) := by
      unfold totalEv
      simp only [List.map_cons, List.map_nil, List.getElem?_cons_succ, List.getElem?_cons_zero, h1, h2]
      simp [nd, cfg', realBoost]
    rw [ht, h1]
    have hb : (cfg' σ).boost 2 1 = XF.fin (σ * √(Real.log 2)) := by simp [cfg', realBoost]
    rw [hb, XF.fin_add, XF.fin_div_ne _ _ hpos]
    rfl
  unfold iterate
  rw [show T2.nodes.length = 3 from rfl, hsel]
  unfold T2
  simp only [List.getElem?_cons_zero, List.getElem?_cons_succ, hx, hp, ht, nd_add]
  rw [if_neg (by norm_num [XF.ltb])]
  rw [if_neg (by norm_num [XF.ltb, XF.fin_div, cfg', nd])]
  have ha : nd (1/2) (1/2) (XF.fin (1/2)) none none (some ([] ++ [![1/2]])) ([] ++ [XF.fin 1 / XF.fin 1]) (([] : List (Pt ℝ 1)).length + 1)
      ((([] ++ [XF.fin 1 / XF.fin 1] : List (XF ℝ)).sum * ([] ++ [XF.fin 1 / XF.fin 1] : List (XF ℝ)).sum) / (([] ++ [XF.fin 1 / XF.fin 1] : List (XF ℝ)).map fun w => w * w).sum) =
      nd (1/2) (1/2) (XF.fin (1/2)) none none (some [![1/2]]) [XF.fin 1] 1 (XF.fin 1) := by
    norm_num [XF.fin_div]
  rw [ha]
  have hN : (nd (1/2) (1/2) (XF.fin (1/2)) none none (some [![1/2]]) [XF.fin 1] 1 (XF.fin 1)).N = 1 := rfl
  simp only [List.set_cons_succ, List.set_cons_zero]
  rw [hN, hq]
  simp [nd, refreshQ, T3r]

theorem qr_lt {σ : ℝ} (hσ : 0 < σ) : 0 < qr (2 * σ) ∧ qr (2 * σ) < qr σ := by
  have hL : 0 < √(Real.log 2) := Real.sqrt_pos.2 (Real.log_pos (by norm_num))
  have hM : √(Real.log 2) / 2 < √(Real.log 2 / 2) := by
    have hl := Real.log_pos (show (1 : ℝ) < 2 by norm_num)
    apply Real.lt_sqrt_of_sq_lt
    rw [div_pow, Real.sq_sqrt hl.le]
    linarith
  unfold qr
  generalize √(Real.log 2) = L at hL hM ⊢
  generalize √(Real.log 2 / 2) = M at hM ⊢
  have hM0 : 0 < M := by linarith
  refine ⟨by positivity, ?_⟩
  rw [div_lt_div_iff₀ (by positivity) (by positivity)]
  nlinarith [mul_lt_mul_of_pos_left hM hσ]

/-- The tree of the witness after its fourth sample, when that is in the left half. -/
noncomputable def T4l (q q1 q2 : XF ℝ) : Tree ℝ 1 :=
  ⟨[nd 0 1 q (some 1) (some 2) none [XF.fin 2, XF.fin 0] 2 (XF.fin 1),
    nd (-1/2) (1/2) q1 none none (some [![-3/4], ![-7/8], ![-3/4]]) [XF.fin 1, XF.fin 0, XF.fin 1] 3 (XF.fin 2),
    nd (1/2) (1/2) q2 none none (some [![1/2]]) [XF.fin 1] 1 (XF.fin 1)], [1, 2]⟩

/-- The tree of the witness after its fourth sample, when that is in the right half. -/
noncomputable def T4r (q q1 q2 : XF ℝ) : Tree ℝ 1 :=
  ⟨[nd 0 1 q (some 1) (some 2) none [XF.fin 2, XF.fin 0] 2 (XF.fin 1),
    nd (-1/2) (1/2) q1 none none (some [![-3/4], ![-7/8]]) [XF.fin 1, XF.fin 0] 2 (XF.fin 1),
    nd (1/2) (1/2) q2 none none (some [![1/2], ![1/4]]) [XF.fin 1, XF.fin 1] 2 (XF.fin 2)], [1, 2]⟩

theorem step4l (σ : ℝ) (q : XF ℝ) {x r : ℝ} (hx0 : 0 < x) (hr : r < (1/2) / (x + 1/2)) :
    ∃ q' q1 q2, iterate (cfg' σ) tgt 3 ⟨fun _ => r, ![1/4], 0⟩ (T3r q (XF.fin x)) = .ok (T4l q' q1 q2, 1) := by
  have hp : ∀ q l rr s w N e, (nd (-1/2) (1/2) q l rr s w N e).sampler.prob1 ![-3/4] = XF.fin (1) := fun q l rr s w N e => by
    rw [nd_prob] <;> norm_num
  have hx : ∀ q l rr s w N e, (nd (-1/2) (1/2) q l rr s w N e).sampler.sample1 ![1/4] = ![-3/4] := fun q l rr s w N e => by
    rw [nd_sample]; norm_num
  have hne : x + 1/2 ≠ 0 := by positivity
  have hdiv : (XF.fin (1/2) / (XF.fin x + XF.fin (1/2)) : XF ℝ) = XF.fin ((1/2) / (x + 1/2)) := by
    rw [XF.fin_add, XF.fin_div_ne _ _ hne]
  have hlt : XF.ltb (XF.fin r) (XF.fin ((1/2) / (x + 1/2))) = true := decide_eq_true hr
  have hsel : (T3r q (XF.fin x)).select (fun _ => r) 3 0 [0] 0 = .ok ([0, 0], 1) := by
    unfold T3r nd
    simp only [Tree.select, List.getElem?_cons_zero, List.getElem?_cons_succ, hdiv, hlt]
    simp
  unfold iterate
  rw [show (T3r q (XF.fin x)).nodes.length = 3 from rfl]
  dsimp only
  rw [hsel]
  unfold T3r
  simp only [List.getElem?_cons_zero, List.getElem?_cons_succ, hx, hp, tgt_a, nd_add]
  rw [if_neg (by norm_num [XF.ltb])]
  rw [if_neg (by norm_num [XF.ltb, XF.fin_div, cfg', nd])]
  simp only [nd, T4l]
  norm_num [XF.fin_div]
  exact ⟨_, _, _, rfl⟩

theorem step4r (σ : ℝ) (q : XF ℝ) {x r : ℝ} (hx0 : 0 < x) (hr : r = (1/2) / (x + 1/2)) :
    ∃ q' q1 q2, iterate (cfg' σ) tgt 3 ⟨fun _ => r, ![1/4], 0⟩ (T3r q (XF.fin x)) = .ok (T4r q' q1 q2, 1) := by
  have hp : ∀ q l rr s w N e, (nd (1/2) (1/2) q l rr s w N e).sampler.prob1 ![1/4] = XF.fin (1) := fun q l rr s w N e => by
    rw [nd_prob] <;> norm_num
  have hx : ∀ q l rr s w N e, (nd (1/2) (1/2) q l rr s w N e).sampler.sample1 ![1/4] = ![1/4] := fun q l rr s w N e => by
    rw [nd_sample]; norm_num
  have ht : tgt ![1/4] = XF.fin 1 := by norm_num [tgt]
  have hne : x + 1/2 ≠ 0 := by positivity
  have hdiv : (XF.fin (1/2) / (XF.fin x + XF.fin (1/2)) : XF ℝ) = XF.fin ((1/2) / (x + 1/2)) := by
    rw [XF.fin_add, XF.fin_div_ne _ _ hne]
  have hlt : XF.ltb (XF.fin r) (XF.fin ((1/2) / (x + 1/2))) = false := decide_eq_false (by rw [hr]; exact lt_irrefl _)
  have hsel : (T3r q (XF.fin x)).select (fun _ => r) 3 0 [0] 0 = .ok ([0, 0], 2) := by
    unfold T3r nd
    simp only [Tree.select, List.getElem?_cons_zero, List.getElem?_cons_succ, hdiv, hlt]
    simp
  unfold iterate
  rw [show (T3r q (XF.fin x)).nodes.length = 3 from rfl]
  dsimp only
  rw [hsel]
  unfold T3r
  simp only [List.getElem?_cons_zero, List.getElem?_cons_succ, hx, hp, ht, nd_add]
  rw [if_neg (by norm_num [XF.ltb])]
  rw [if_neg (by norm_num [XF.ltb, XF.fin_div, cfg', nd])]
  simp only [nd, T4r]
  norm_num [XF.fin_div]
  exact ⟨_, _, _, rfl⟩

/-- The random outcomes of the witness. -/
noncomputable def itsScale (r : ℝ) (k : ℕ) : Iter ℝ 1 :=
  if k = 0 then ⟨fun _ => 0, ![1/8], 0⟩ else if k = 1 then ⟨fun _ => 0, ![1/16], 0⟩ else
    if k = 2 then ⟨fun _ => 1, ![1/2], 0⟩ else ⟨fun _ => r, ![1/4], 0⟩

/-- **C151** (negation) HiDaisee on the interval from -1 to 1 with `n_min = 1`, `ess_target = 0.6` and any positive exploration
constant, for the target that is 1 right of -4/5 and 0 elsewhere, and for twice that target, with the same random outcomes: the
fourth sample is drawn in the left half in the first run and in the right half in the second one. -/
theorem C151_refuted (σ : ℝ) (hσ : 0 < σ) : ∃ (its : ℕ → Iter ℝ 1) (S S' : Sampler ℝ 1),
    importanceSample ⟨realBoost σ, 1, 3/5⟩ (fun x => .fin (stepDensity x)) 4 its (reset ![-1] ![1]) = .ok S ∧
    importanceSample ⟨realBoost σ, 1, 3/5⟩ (fun x => .fin 2 * .fin (stepDensity x)) 4 its (reset ![-1] ![1]) = .ok S' ∧
    S.samples = [![-3/4], ![-7/8], ![-3/4], ![1/2]] ∧ S'.samples = [![-3/4], ![-7/8], ![1/2], ![1/4]] ∧
    S.samples ≠ S'.samples := by
  have hr4 : List.range 4 = [0, 1, 2, 3] := rfl
  obtain ⟨hq0, hq1⟩ := qr_lt (half_pos hσ)
  rw [show 2 * (σ / 2) = σ by ring] at hq0 hq1
  set r : ℝ := (1/2) / (qr (σ / 2) + 1/2) with hr
  have hr' : r < (1/2) / (qr σ + 1/2) := by
    rw [hr]
    exact div_lt_div_of_pos_left (by norm_num) (by positivity) (by linarith)
  obtain ⟨q, h3⟩ := step3' σ hσ.le
  obtain ⟨q', h3'⟩ := step3' (σ / 2) (half_pos hσ).le
  obtain ⟨a, a1, a2, h4⟩ := step4l σ q hq0 hr'
  obtain ⟨b, b1, b2, h4'⟩ := step4r (σ / 2) q' (hq0.trans hq1) hr
  have h1 := step1' σ
  have h2 := step2' σ
  have h1' := step1' (σ / 2)
  have h2' := step2' (σ / 2)
  obtain ⟨S, e1, e2, e3⟩ := importance_of (c := cfg' σ) (target := tgt) (n := 4) (its := itsScale r) (S := reset ![-1] ![1])
    (S1 := { reset ![-1] ![1] with T := T4l a a1 a2, numQ := 4, numPi := 6, numQEval := 6 })
    (by simp [reset, hr4, itsScale, iterations, h1, h2, h3, h4, -one_div])
  obtain ⟨S', f1, f2, f3⟩ := importance_of (c := cfg' (σ / 2)) (target := tgt) (n := 4) (its := itsScale r) (S := reset ![-1] ![1])
    (S1 := { reset ![-1] ![1] with T := T4r b b1 b2, numQ := 4, numPi := 6, numQEval := 6 })
    (by simp [reset, hr4, itsScale, iterations, h1', h2', h3', h4', -one_div])
  have g := call_scaled (c := (2 : ℝ)) two_pos (cfg' (σ / 2)) tgt 4 (itsScale r) (reset ![-1] ![1])
  rw [← cfg'_two, show 2 * (σ / 2) = σ by ring, f1] at g
  have hS : S.samples = [![-3/4], ![-7/8], ![-3/4], ![1/2]] := by
    rw [e3]
    simp [Tree.leafNodes, T4l, nd]
  have hS' : S'.samples = [![-3/4], ![-7/8], ![1/2], ![1/4]] := by
    rw [f3]
    simp [Tree.leafNodes, T4r, nd]
  rw [tgt_eq] at e1 g
  refine ⟨itsScale r, S, S'.scaled 2, e1, g, hS, hS', ?_⟩
  rw [show (S'.scaled 2).samples = S'.samples from rfl, hS, hS']
  intro h
  have h2 := congrArg (fun l : List (Pt ℝ 1) => (l[2]?.map fun x => x 0)) h
  norm_num at h2

/-- Non-vacuity of `C151_hidaisee_partial`: two runs with a split and four samples that do not raise. -/
example : ∃ (its : ℕ → Iter ℝ 1) (S : Sampler ℝ 1), (0 : ℝ) < 2 ∧
    importanceSample ⟨realBoost 1, 1, 3/5⟩ (fun x => .fin (stepDensity x)) 4 its (reset ![-1] ![1]) = .ok S ∧ S.samples.length = 4 := by
  obtain ⟨its, S, -, h, -, hS, -⟩ := C151_refuted 1 one_pos
  exact ⟨its, S, two_pos, h, by rw [hS]; rfl⟩

end refuted
end HiD
end Verif
