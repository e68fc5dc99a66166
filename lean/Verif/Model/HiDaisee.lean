import Verif.Model.TreePyramid
import Mathlib.Analysis.SpecialFunctions.Log.Basic
import Mathlib.Analysis.SpecialFunctions.Sqrt

/-!
# HiDaisee: `sampling_methods/hi_daisee.py`

Node objects live in the list `nodes`; a reference to a node object, like the stored `idx`, is its position. What an
exception leaves behind is not modelled.
-/

set_option linter.unusedSectionVars false
set_option autoImplicit false

namespace Verif
namespace HiD

variable {K : Type*} [Field K] [LinearOrder K] {d : ℕ}

/-- hi_daisee.py:40-53 `CHiDaiseeNode`; the sampler is determined by center and radius, `parent` is never read.
`samples` is `none` after a split (line 139). -/
structure Node (K : Type*) (d : ℕ) where
  center : Pt K d
  radius : Pt K d
  q : XF K
  left : Option ℕ
  right : Option ℕ
  samples : Option (List (Pt K d))
  weights : List (XF K)
  N : ℕ
  ess : XF K

namespace Node

/-- hi_daisee.py:41-53 constructor (and lines 110-111). -/
def new (center radius : Pt K d) (q : XF K) : Node K d := ⟨center, radius, q, none, none, some [], [], 0, XF.fin 0⟩

/-- hi_daisee.py:49. -/
def sampler (n : Node K d) : Uniform K d := ⟨n.center, n.radius, ∏ i, n.radius i * 2⟩

/-- hi_daisee.py:61-65 `add_sample`; it is only called for nodes that have samples. -/
def addSample (n : Node K d) (x : Pt K d) (w : XF K) : Node K d :=
  let xs := n.samples.getD [] ++ [x]
  let ws := n.weights ++ [w]
  { n with samples := some xs, weights := ws, N := xs.length, ess := (ws.sum * ws.sum) / (ws.map fun w => w * w).sum }

/-- `np.mean(n.weights)`: hi_daisee.py:262, 265, 299. -/
def mean (n : Node K d) : XF K := n.weights.sum / XF.fin (n.weights.length : K)

end Node

/-- hi_daisee.py:85-94 `CHiDaiseeTree`. -/
structure Tree (K : Type*) (d : ℕ) where
  nodes : List (Node K d)
  leaves : List ℕ

/-- hi_daisee.py:86-94. -/
def Tree.init (lo hi : Pt K d) : Tree K d :=
  ⟨[Node.new (fun i => (hi i + lo i) / 2) (fun i => (hi i - lo i) / 2) (XF.fin 0)], [0]⟩

/-- hi_daisee.py:121-131 one pass of the loop: sample `x` goes to the left or the right child. -/
def push (target : Pt K d → XF K) (j : Fin d) (lr : Node K d × Node K d) (x : Pt K d) :
    Except PyErr (Node K d × Node K d) :=
  if x j < lr.1.center j + lr.1.radius j then
    if XF.leb (lr.1.sampler.prob1 x) (XF.fin 0) then .error .value
    else .ok (lr.1.addSample x (target x / lr.1.sampler.prob1 x), lr.2)
  else
    if XF.leb (lr.2.sampler.prob1 x) (XF.fin 0) then .error .value
    else .ok (lr.1, lr.2.addSample x (target x / lr.2.sampler.prob1 x))

/-- hi_daisee.py:98-111 the two empty children of `n` for dimension `j`. -/
def children (n : Node K d) (j : Fin d) : Node K d × Node K d :=
  let rad := Function.update n.radius j (n.radius j / 2)
  (Node.new (Function.update n.center j (n.center j - rad j)) rad (n.q / XF.fin 2),
   Node.new (Function.update n.center j (n.center j + rad j)) rad (n.q / XF.fin 2))

/-- hi_daisee.py:96-139 `split` of node `p` along the dimension `j` drawn at line 100. Line 121 raises TypeError for a
node without sample list, line 134 ValueError for a node that is not a leaf. -/
def Tree.split (T : Tree K d) (p : ℕ) (j : Fin d) (target : Pt K d → XF K) : Except PyErr (Tree K d) :=
  match T.nodes[p]? with
  | none => .error .index
  | some n =>
    match n.samples with
    | none => .error .type
    | some xs =>
      match xs.foldlM (push target j) (children n j) with
      | .error e => .error e
      | .ok lr =>
        if p ∈ T.leaves then
          .ok ⟨T.nodes.set p { n with left := some T.nodes.length, right := some (T.nodes.length + 1), samples := none } ++
              [lr.1, lr.2],
            T.leaves.erase p ++ [T.nodes.length, T.nodes.length + 1]⟩
        else .error .value

/-- hi_daisee.py:213-224 selection of a leaf; `rs k` is the k-th number drawn, `P` the list of line 206. `fuel` bounds
the number of passes (python would go on; `.runtime` stands for that). -/
def Tree.select (T : Tree K d) (rs : ℕ → K) : (fuel : ℕ) → (k : ℕ) → (P : List ℕ) → (id : ℕ) → Except PyErr (List ℕ × ℕ)
  | fuel, k, P, id =>
    if id ∈ T.leaves then .ok (P, id)
    else
      match fuel with
      | 0 => .error .runtime
      | fuel + 1 =>
        match T.nodes[id]? with
        | none => .error .index
        | some n =>
          match n.left, n.right with
          | some l, some r =>
            match T.nodes[l]?, T.nodes[r]? with
            | some nl, some nr =>
              let qleft := nl.q / (nr.q + nl.q)
              T.select rs fuel (k + 1) (P ++ [id]) (if XF.ltb (XF.fin (rs k)) qleft then l else r)
            | _, _ => .error .index
          | _, _ => .error .attribute

/-- Parameters: hi_daisee.py:173-181. `boost t N` is `self.sigma * np.sqrt(np.log(t) / N)` (lines 255, 261). -/
structure Cfg (K : Type*) where
  boost : ℕ → ℕ → XF K
  nMin : ℕ
  essTarget : K

/-- hi_daisee.py:255, 261 with `self.sigma = σ`: the logarithm of 0 is `-inf`, whose square root is NaN. -/
noncomputable def realBoost (σ : ℝ) (t N : ℕ) : XF ℝ :=
  if t = 0 then XF.nan else XF.fin (σ * Real.sqrt (Real.log t / N))

/-- Random outcomes of one iteration: numbers of line 220, generator output for line 233, dimension of line 100. -/
structure Iter (K : Type*) (d : ℕ) where
  rs : ℕ → K
  u : Pt K d
  j : Fin d

/-- hi_daisee.py:258-263 `total_ev`. -/
def totalEv (c : Cfg K) (t : ℕ) (T : Tree K d) : XF K :=
  (T.leaves.map fun l => match T.nodes[l]? with
    | some n => if 0 < n.N then n.mean + c.boost t n.N else XF.fin 0
    | none => XF.fin 0).sum

/-- hi_daisee.py:269-270 for one entry of the path. -/
def refreshQ (nodes : List (Node K d)) (p : ℕ) : List (Node K d) :=
  nodes.modify p fun n =>
    { n with q := ((n.left.bind (nodes[·]?)).map Node.q).getD XF.nan + ((n.right.bind (nodes[·]?)).map Node.q).getD XF.nan }

/-- hi_daisee.py:204-279 one iteration; the numbers returned with the tree are added to `_num_q_evals` and
`_num_pi_evals`. -/
def iterate (c : Cfg K) (target : Pt K d → XF K) (t : ℕ) (it : Iter K d) (T : Tree K d) :
    Except PyErr (Tree K d × ℕ) :=
  match T.select it.rs T.nodes.length 0 [0] 0 with
  | .error e => .error e
  | .ok (P, id) =>
    match T.nodes[id]? with
    | none => .error .index
    | some n =>
      let x := n.sampler.sample1 it.u
      if XF.ltb (XF.fin 0) (n.sampler.prob1 x) = false then .error .assertion
      else
        let n1 := n.addSample x (target x / n.sampler.prob1 x)
        let total := totalEv c t ⟨T.nodes.set id n1, T.leaves⟩
        let n2 := { n1 with q := (n1.mean + c.boost t n1.N) / total }
        let T2 : Tree K d := ⟨P.dropLast.reverse.foldl refreshQ (T.nodes.set id n2), T.leaves⟩
        if c.nMin ≤ n2.N ∧ XF.ltb n2.ess (XF.fin (c.essTarget * n2.N)) = true then
          (T2.split id it.j target).map fun T3 => (T3, 1 + n2.N)
        else .ok (T2, 1)

/-- State of `CHiDaiseeSampling` (hi_daisee.py:187-198, base.py:21-26). -/
structure Sampler (K : Type*) (d : ℕ) where
  T : Tree K d
  samples : List (Pt K d)
  weights : List (XF K)
  model : List (Pt K d × Pt K d) × List (XF K)
  numQ : ℕ
  numPi : ℕ
  numQEval : ℕ

/-- hi_daisee.py:187-198 `reset` (the constructor ends with it). -/
def reset (lo hi : Pt K d) : Sampler K d :=
  ⟨Tree.init lo hi, [], [], ([(fun i => (hi i + lo i) / 2, fun i => (hi i - lo i) / 2)], [XF.fin 1]), 0, 0, 0⟩

/-- hi_daisee.py:204-279 iterations `t, t+1, ...` for the given outcomes. -/
def iterations (c : Cfg K) (target : Pt K d → XF K) : ℕ → List (Iter K d) → Sampler K d → Except PyErr (Sampler K d)
  | _, [], S => .ok S
  | t, it :: its, S =>
    match iterate c target t it S.T with
    | .error e => .error e
    | .ok (T, k) => iterations c target (t + 1) its
        { S with T := T, numQ := S.numQ + 1, numPi := S.numPi + k, numQEval := S.numQEval + k }

/-- The leaf objects in the order of the leaf list. -/
def Tree.leafNodes (T : Tree K d) : List (Node K d) := T.leaves.filterMap (T.nodes[·]?)

/-- hi_daisee.py:292-300, 313-320 `_update_model`. -/
def updateModel (S : Sampler K d) : Except PyErr (Sampler K d) :=
  (setWeights S.T.leafNodes.length (S.T.leafNodes.map Node.mean)).map fun w =>
    { S with model := (S.T.leafNodes.map fun n => (n.center, n.radius), w) }

/-- hi_daisee.py:302-311 `_get_samples`. -/
def getSamples (S : Sampler K d) : Sampler K d :=
  { S with samples := S.T.leafNodes.flatMap fun n => n.samples.getD [],
           weights := S.T.leafNodes.flatMap Node.weights }

/-- hi_daisee.py:200-285 `importance_sample`: `range(len(self.samples), n)`; `its` are the outcomes of its iterations
(of which the first `n - len(self.samples)` are used). -/
def importanceSample (c : Cfg K) (target : Pt K d → XF K) (n : ℕ) (its : ℕ → Iter K d) (S : Sampler K d) :
    Except PyErr (Sampler K d) :=
  match iterations c target S.samples.length ((List.range (n - S.samples.length)).map its) S with
  | .error e => .error e
  | .ok S => (updateModel S).map getSamples

/-- The mixture object of hi_daisee.py:316-320: one uniform component per box with the stored weights. After `reset` the model
is a single uniform distribution (line 198), here a mixture of one component with weight 1. -/
noncomputable def mixture (S : Sampler ℝ d) : Mixture (Pt ℝ d) :=
  ⟨S.model.1.map fun b => (⟨b.1, b.2, ∏ i, b.2 i * 2⟩ : Uniform ℝ d).logProb1, S.model.2⟩

/-- base.py:151-154 `prob` on a batch. -/
noncomputable def prob (S : Sampler ℝ d) (data : List (Pt ℝ d)) : List (XF ℝ) := (mixture S).prob data

/-- base.py:156-159 `log_prob` on a batch. -/
noncomputable def logProb (S : Sampler ℝ d) (data : List (Pt ℝ d)) : List (XF ℝ) := (mixture S).logProb data

end HiD
end Verif
