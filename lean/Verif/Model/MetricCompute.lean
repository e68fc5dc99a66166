import Verif.Model.GMM
import Verif.Model.Metrics

/-!
# The entry points of the sample based metrics: `metrics/divergences.py`, `metrics/statistics.py`

The densities are functions on points; evaluating a batch is evaluating every row. The random numbers are an
infinite supply, the first `n` rows of it are used by one call.
-/

set_option linter.unusedSectionVars false
set_option autoImplicit false

namespace Verif
namespace MetricCompute

variable {d : ℕ}

/-- divergences.py:85-86, statistics.py:32-33 `samples`: `nsamples` rows drawn by `np.random.uniform` between the two
bounds of the support of `p`; `u k` are the random numbers of row `k`. -/
def evalSamples (a b : Fin d → ℝ) (u : ℕ → Fin d → ℝ) (n : ℕ) : List (Fin d → ℝ) :=
  (List.range n).map fun k i => npUniform (a i) (b i) (u k i)

/-- divergences.py:78-88 `compute` of the KL divergence; `logp` and `logq` are the methods `log_prob` of the two
distributions, `a` and `b` the support of `p`. -/
noncomputable def kl (logp logq : (Fin d → ℝ) → XF ℝ) (a b : Fin d → ℝ) (u : ℕ → Fin d → ℝ) (n : ℕ) :
    Except PyErr (XF ℝ) :=
  KL.computeFromSamples ((evalSamples a b u n).map fun x => (logp x, logq x))

/-- divergences.py:78-88 `compute` of the Jensen-Shannon divergence; `p` and `q` are the methods `prob`. -/
noncomputable def jsd (p q : (Fin d → ℝ) → XF ℝ) (a b : Fin d → ℝ) (u : ℕ → Fin d → ℝ) (n : ℕ) :
    Except PyErr (XF ℝ) :=
  JSD.compute ((evalSamples a b u n).map fun x => (p x, q x))

/-- statistics.py:24-35 `compute` of the expected value error. -/
noncomputable def evmse (p q : (Fin d → ℝ) → XF ℝ) (a b : Fin d → ℝ) (u : ℕ → Fin d → ℝ) (n : ℕ) : XF ℝ :=
  EVMSE.compute ((evalSamples a b u n).map fun x => ⟨x, p x, q x⟩)

end MetricCompute
end Verif
