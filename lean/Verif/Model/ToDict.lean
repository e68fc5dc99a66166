import Verif.Model.GMM

/-!
# Saving distributions as benchmark entries: `to_dict`

`distributions/distributions.py`, `distributions/mixture/CGaussianMixtureModel.py`, and the loading of such an entry by
`benchmark/CBenchmark.py`.
-/

set_option linter.unusedSectionVars false
set_option autoImplicit false

namespace Verif
namespace ToDict

/-- A vector of numbers: a numpy array (`np`) or a python list. -/
structure Vec where
  np : Bool
  vals : List ℝ

/-- `v.tolist()`: lists have no such method. -/
def Vec.tolist (v : Vec) : Except PyErr (List ℝ) := if v.np then .ok v.vals else .error .attribute

/-- The parameter dictionary of a Gaussian mixture. -/
structure Params where
  means : List Vec
  sigmas : List Vec
  weights : Option Vec
  support : List Vec

/-- A `CGaussianMixtureModel` with the parameters as they were given (CGaussianMixtureModel.py:27-38). -/
structure Obj where
  dims : ℕ
  means : List Vec
  sigmas : List Vec
  weights : Vec
  support : List Vec
  inner : GMM dims

/-- A list of numbers as a vector of `d` components. -/
def vec (d : ℕ) (l : List ℝ) : Fin d → ℝ := fun k => l.getD k 0

/-- CGaussianMixtureModel.py:8-38 the constructor. Simplified: vectors shorter than the first mean are filled up with zeros,
and longer ones are cut, where numpy raises. -/
noncomputable def new (p : Params) : Except PyErr Obj :=
  match p.means with
  | [] => .error .index
  | m :: _ =>
    let d := m.vals.length
    let w := p.weights.getD ⟨true, List.replicate p.means.length (1 / p.means.length)⟩
    match GMM.mk' (p.means.map fun v => vec d v.vals) (p.sigmas.map fun v => vec d v.vals) (some (w.vals.map XF.fin))
        (vec d (p.support.getD 0 ⟨true, []⟩).vals, vec d (p.support.getD 1 ⟨true, []⟩).vals) with
    | .error e => .error e
    | .ok g => .ok ⟨d, p.means, p.sigmas, w, p.support, g⟩

/-- CGaussianMixtureModel.py:43-44 `prob`. -/
noncomputable def Obj.prob (o : Obj) (data : List (List ℝ)) : List (XF ℝ) := o.inner.prob (data.map (vec o.dims))

/-- An entry of a benchmark file. -/
structure Entry where
  name : String
  type : String
  batchSize : ℕ
  nsamples : ℕ
  nsamplesEval : ℕ
  family : String
  dims : ℕ
  support : List (List ℝ)
  means : List (List ℝ)
  sigmas : List (List ℝ)
  weights : List ℝ

/-- distributions.py:296-308 and CGaussianMixtureModel.py:58-63 `to_dict` of a Gaussian mixture. -/
def toDict (o : Obj) (name : Option String) (batchSize nsamples nsamplesEval : ℕ) : Except PyErr Entry := do
  let support ← o.support.mapM Vec.tolist
  let means ← o.means.mapM Vec.tolist
  let sigmas ← o.sigmas.mapM Vec.tolist
  let weights ← o.weights.tolist
  return ⟨name.getD "GMM", "distributions." ++ "CGaussianMixtureModel", batchSize, nsamples, nsamplesEval, "mixture", o.dims,
    support, means, sigmas, weights⟩

/-- The distribution classes that CBenchmark.py:15 brings into scope (distributions/__init__.py and the files it imports). -/
def globals : List String :=
  ["CDistribution", "CKernel", "CMultivariateNormal", "CMultivariateUniform", "CMultivariateDelta", "CMultivariateExponential",
   "CMixtureModel", "CGaussianMixtureModel", "CNearestNeighbor", "CKernelDensity", "BenchDenUniform", "BenchDenExponential",
   "BenchDenMaxwell", "BenchDenLaplace", "BenchDenSymmetricPareto", "Banana2D", "ABCDistribution", "GenericNoisyFunction",
   "GenericNuisanceGenModel"]

/-- The classes of the module that the name `distributions` stands for in CBenchmark.py: the import of line 15 brings the
submodule `distributions/distributions.py` into scope under this name. -/
def submodule : List String := ["CDistribution", "CKernel"]

/-- The class a type name of a benchmark file stands for: NameError, or AttributeError for a name the module does not have. -/
def resolve (t : String) : Except PyErr String :=
  if t ∈ globals then .ok t
  else if t ∈ submodule.map ("distributions." ++ ·) then .ok (t.drop "distributions.".length).toString
  else .error .attribute

/-- CBenchmark.py:130-136: the target of an entry; every exception becomes a ValueError. The values are python lists. Entries
that are not Gaussian mixtures are rejected here (the parameters are not those of another class). -/
noncomputable def load (e : Entry) : Except PyErr Obj :=
  match resolve e.type with
  | .error _ => .error .value
  | .ok c =>
    if c = "CGaussianMixtureModel" then
      match new ⟨e.means.map (Vec.mk false), e.sigmas.map (Vec.mk false), some ⟨false, e.weights⟩, e.support.map (Vec.mk false)⟩ with
      | .error _ => .error .value
      | .ok o => .ok o
    else .error .value

end ToDict
end Verif
