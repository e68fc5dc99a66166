import Verif.Model.TreePyramid

/-!
# `sampling_methods/tree_pyramid.py`: the schemes "mixture" and "dm" (haar kernel)

Both names run the same code (`importance_sample`, lines 495-496).
-/

set_option linter.unusedSectionVars false
set_option autoImplicit false

namespace Verif

variable {K : Type*} [Field K] [LinearOrder K] {d : ℕ}

/-- What the environment provides for one iteration of the loop of `importance_sample_mixture`: for the k-th
point drawn to choose the regions, the Bernoulli outcomes `pick k` of the multinomial draw and the uniform numbers
`pickAt k`; for the new sample of the node with reference `p`, the same as `comp p` and `draw p`; the uniform numbers of the
resampling step per node position; and whether the time limit has passed after the iteration. -/
structure TPMixIter (K : Type*) (d : ℕ) where
  pick : ℕ → ℕ → K → Bool
  pickAt : ℕ → Pt K d
  comp : ℕ → ℕ → K → Bool
  draw : ℕ → Pt K d
  redraw : ℕ → Pt K d
  late : Bool

/-- One call: requested number of samples, generator output for a first root sample, and the iterations. -/
structure TPMixCall (K : Type*) (d : ℕ) where
  n : ℕ
  u0 : Pt K d
  its : List (TPMixIter K d)

/-- `np.clip(x, lo, hi)` (tree_pyramid.py:401). -/
def clipPt (lo hi x : Pt K d) : Pt K d := fun i => min (max (x i) (lo i)) (hi i)

/-- `self.model.sample(n)` for the mixture of uniform boxes built by `_update_model` (tree_pyramid.py:717-736,
CMixtureModel.py:79-89, CMultivariateUniform.py:32-36). -/
def boxesSample (model : List (Pt K d × K) × List (XF K)) (bern : ℕ → ℕ → K → Bool) (u : ℕ → Pt K d) (n : ℕ) :
    Except PyErr (List (Pt K d)) :=
  mixtureSample model.1.length model.2 bern
    (fun i k => match model.1[i]? with
      | some (c, r) => Uniform.sample1 ⟨c, fun _ => r, (r * 2) ^ d⟩ (u k)
      | none => fun _ => 0) n

/-- tree_pyramid.py:342-361 `find_unique`: the nodes found, without repetition, and how often each was found.
`fuel` is the recursion limit of the interpreter. -/
def TPTree.findUnique (T : TPTree K d) (fuel : ℕ) (xs : List (Pt K d)) : Except PyErr (List ℕ × List ℕ) :=
  xs.foldlM (fun (acc : List ℕ × List ℕ) x => do
    let p ← T.find x fuel none
    if p ∈ acc.1 then return (acc.1, acc.2.modify (acc.1.idxOf p) (· + 1))
    else return (acc.1 ++ [p], acc.2 ++ [1])) ([], [])

namespace TPSampler

/-- tree_pyramid.py:379-388: first sample of the root; here the two evaluations are counted. -/
def initRootMix (target : Pt K d → XF K) (u : Pt K d) (S : TPSampler K d) : Except PyErr (TPSampler K d) :=
  match S.T.nodes[0]? with
  | none => .error .index
  | some root =>
    if root.histDeleted = false ∧ root.weightHist = none then do
      let T1 ← S.T.sampleNode 0 (root.sampler.sample1 u)
      let T2 ← T1.weighNode 0 target root.sampler.prob1
      updateModel { S with T := T2, numQ := S.numQ + 1, numPi := S.numPi + 1, numQEvals := S.numQEvals + 1 }
    else .ok S

/-- tree_pyramid.py:406-414: a node is sampled from the mixture model and weighed with the sampler's own `prob`
(lines 570-603), which reads the weights of the tree as they are at that moment. -/
def visitMix (target : Pt K d → XF K) (it : TPMixIter K d) (S : TPSampler K d) (p : ℕ) :
    Except PyErr (TPSampler K d) := do
  let xs ← boxesSample S.model (fun _ => it.comp p) (fun _ => it.draw p) 1
  let x := xs.headD fun _ => 0
  let T1 ← S.T.sampleNode p x
  let q ← T1.prob1 x
  let T2 ← T1.weighNode p target fun _ => q
  return { S with T := T2, numQ := S.numQ + 1, numPi := S.numPi + 1, numQEvals := S.numQEvals + 1 }

/-- tree_pyramid.py:391-418: body of the loop. `have_` is `self._get_nsamples()`, `dmin` and `dmax` are the limits of the
space. Line 395: `ceil((n_samples - have) / 2^d)`; line 398 goes through base.py:145-149, which counts the points drawn. -/
def iterateMix (cfg : TPConfig K) (dmin dmax : Pt K d) (target : Pt K d → XF K) (fuel : ℕ) (nSamples have_ : ℕ)
    (it : TPMixIter K d) (S : TPSampler K d) : Except PyErr (TPSampler K d) := do
  let k := (nSamples - have_ + (2 ^ d - 1)) / 2 ^ d
  let pts ← boxesSample S.model it.pick it.pickAt k
  match S.T.findUnique fuel (pts.map (clipPt dmin dmax)) with
  | .error e => .error e
  | .ok (nodes, _) => do
    let (T1, new) ← TPTree.expandNodes cfg.essTarget cfg.nMin (nSamples - have_) S.T nodes []
    let S2 ← new.foldlM (visitMix target it) { S with T := T1, numQ := S.numQ + k }
    if cfg.leafResampling then
      let T3 ← S2.T.resample target it.redraw
      let n := S2.T.leaves.length
      return { S2 with T := T3, numQ := S2.numQ + n, numPi := S2.numPi + n, numQEvals := S2.numQEvals + n }
    else
      return S2

/-- tree_pyramid.py:390-420: the loop, driven by a script of iterations; the boolean tells whether the loop was left
(`true`) or the script ended first (`false`). -/
def loopMix (cfg : TPConfig K) (dmin dmax : Pt K d) (target : Pt K d → XF K) (fuel nSamples : ℕ) :
    Bool → List (TPMixIter K d) → TPSampler K d → Except PyErr (TPSampler K d × Bool)
  | late, [], S => do
    let (_, ws) ← S.T.getSamples cfg.essTarget
    return (S, decide (¬ (ws.length < nSamples ∧ late = false)))
  | late, it :: its, S => do
    let (_, ws) ← S.T.getSamples cfg.essTarget
    if ws.length < nSamples ∧ late = false then
      let S' ← iterateMix cfg dmin dmax target fuel nSamples ws.length it S
      loopMix cfg dmin dmax target fuel nSamples it.late its S'
    else
      return (S, true)

/-- tree_pyramid.py:363-423 `importance_sample_mixture`. The result carries the samples and weights when the call
returned (`some`), `none` when the script ended first. -/
def importanceSampleMix (cfg : TPConfig K) (dmin dmax : Pt K d) (target : Pt K d → XF K) (fuel : ℕ)
    (c : TPMixCall K d) (S : TPSampler K d) :
    Except PyErr (TPSampler K d × Option (List (Pt K d) × List (XF K))) := do
  let S0 ← initRootMix target c.u0 S
  let (S1, fin) ← loopMix cfg dmin dmax target fuel c.n false c.its S0
  if fin then
    let S2 ← updateModel S1
    let out ← S2.T.getSamples cfg.essTarget
    return (S2, some out)
  else
    return (S1, none)

/-- Successive calls on the same sampler with the same target. -/
def callsMix (cfg : TPConfig K) (dmin dmax : Pt K d) (target : Pt K d → XF K) (fuel : ℕ) (S : TPSampler K d)
    (cs : List (TPMixCall K d)) : Except PyErr (TPSampler K d) :=
  cs.foldlM (fun S c => (importanceSampleMix cfg dmin dmax target fuel c S).map fun r => r.1) S

end TPSampler
end Verif
