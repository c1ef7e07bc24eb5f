/-
Model of thewalrus/quantum/photon_number_distributions.py.  Real numbers in place of floats; `np.arctanh` by `Real.artanh`, `scipy.special.hyp2f1` by the hypergeometric series of Mathlib,
`scipy.special.binom` and `scipy.stats.nbinom.pmf` by their definitions in terms of the gamma function; `np.linalg.svd` is a parameter (contract in Spec/LinAlg.lean).
-/
import Verif.Model.Conversions
import Verif.Model.GaussianChecks
import Mathlib.Analysis.SpecialFunctions.Artanh
import Mathlib.Analysis.SpecialFunctions.Gamma.Basic
import Mathlib.Analysis.SpecialFunctions.OrdinaryHypergeometric
import Mathlib.Analysis.SpecialFunctions.Trigonometric.DerivHyp

set_option linter.style.longLine false

namespace Verif.Model.Dist
open Verif.Model.Conv

/-- `scipy.stats.nbinom.pmf(k, p=q, n=r)`: `Γ(r + k) / (k! Γ(r)) q^r (1 - q)^k` (used in photon_number_distributions.py:68, 71). -/
noncomputable def nbinomPmf (k : ℕ) (q r : ℝ) : ℝ := Real.Gamma (r + k) / (k.factorial * Real.Gamma r) * q ^ r * (1 - q) ^ k

/-- `_squeezed_state_distribution`, photon_number_distributions.py:52-75; an array of length `cutoff`. -/
noncomputable def squeezedStateDistribution (s : ℝ) (cutoff : ℕ) (N : ℝ) : ℕ → ℝ :=
  let r := 1 / 2 * N
  let q := 1 - Real.tanh s ^ 2
  let n := cutoff / 2
  if cutoff % 2 = 0 then fun i => if i < cutoff ∧ i % 2 = 0 then nbinomPmf (i / 2) q r else 0
  else fun i => if i = cutoff - 1 then nbinomPmf n q r else if i < cutoff - 1 ∧ i % 2 = 0 then nbinomPmf (i / 2) q r else 0

/-- `np.convolve(a, b)` of arrays of length `n` and `m` (used in photon_number_distributions.py:93). -/
noncomputable def convolve (n m : ℕ) (a b : ℕ → ℝ) (k : ℕ) : ℝ := ∑ i ∈ Finset.range n, if i ≤ k ∧ k - i < m then a i * b (k - i) else 0

/-- `_convolve_squeezed_state_distribution`, photon_number_distributions.py:78-94; an array of length `padding_factor * cutoff`.  `ps[0] = 1.0` raises on an empty array. -/
noncomputable def convolveSqueezed (s : List ℝ) (cutoff padding : ℕ) : Except PyErr (ℕ → ℝ) :=
  let c := padding * cutoff
  if c = 0 then .error .indexError
  else .ok (s.foldl (fun ps v => convolve c c ps (squeezedStateDistribution v c 1)) fun i => if i = 0 then 1 else 0)

/-- `pure_state_distribution`, photon_number_distributions.py:26-49; an array of length `cutoff`.  As in the code, the check of purity does not receive `hbar` (its default is 2). -/
noncomputable def pureStateDistribution (svd : ℕ → (ℕ → ℕ → ℂ) → (ℕ → ℕ → ℂ) × (ℕ → ℝ) × (ℕ → ℕ → ℂ)) (close : ℝ → ℝ → Bool) (atol : ℝ) (N : ℕ) (cov : ℕ → ℕ → ℝ) (cutoff : ℕ) (hbar : ℝ) (padding : ℕ) :
    Except PyErr (ℕ → ℝ) :=
  if Checks.isPureCov close (2 * N) (2 * N) cov 2 atol then
    (Amat N cov hbar).bind fun A => convolveSqueezed ((List.range N).map fun i => Real.artanh ((svd N A).2.1 i)) cutoff padding
  else .error .valueError

/-- `scipy.special.binom(x, y)` where it is defined by `Γ(x+1) / (Γ(y+1) Γ(x-y+1))`. -/
noncomputable def binom (x y : ℝ) : ℝ := Real.Gamma (x + 1) / (Real.Gamma (y + 1) * Real.Gamma (x - y + 1))

/-- `total_photon_number_distribution`, photon_number_distributions.py:97-132. -/
noncomputable def totalPhotonNumberDistribution (n k : ℕ) (s eta pref : ℝ) : ℝ :=
  if n % 2 = 0 then
    binom (-1 + k / 2 + n / 2) (n / 2) * ordinaryHypergeometric (1 / 2 + n / 2 : ℝ) (k / 2 + n / 2 : ℝ) (1 / 2 : ℝ) ((1 - eta) ^ 2 * Real.tanh s ^ 2) * (1 / Real.cosh s) ^ k * (pref * eta * Real.tanh s) ^ n
  else
    (1 + n) * (1 - eta) * binom ((-1 + k + n) / 2) ((1 + n) / 2) * ordinaryHypergeometric ((2 + n) / 2 : ℝ) ((1 + k + n) / 2 : ℝ) (3 / 2 : ℝ) ((1 - eta) ^ 2 * Real.tanh s ^ 2) * (1 / Real.cosh s) ^ k
      * Real.tanh s * (pref * eta * Real.tanh s) ^ n

/-- the polynomial `f` of `characteristic_function`, photon_number_distributions.py:156-159 -/
def polyCorr : Option ℕ → ℝ → ℝ
  | none => fun _ => 1
  | some m => fun x => if m = 0 then 1 else x ^ m

/-- the loop of `characteristic_function`, photon_number_distributions.py:165-185: state `i`, `tot_sum`, `prev_addend`; `fuel` bounds the number of iterations (at most `max_iter`). -/
noncomputable def characteristicLoop (term : ℕ → ℝ) (maxIter : ℕ) (delta : ℝ) : ℕ → ℕ → ℝ → ℝ → ℝ
  | 0, _, tot, _ => tot
  | fuel + 1, i, tot, prev =>
    if i < maxIter then
      let addend := term i
      if tot = 0 then characteristicLoop term maxIter delta fuel (i + 1) (tot + addend) addend
      else if (addend + prev) / tot < delta then tot + addend
      else characteristicLoop term maxIter delta fuel (i + 1) (tot + addend) addend
    else tot

/-- `characteristic_function`, photon_number_distributions.py:135-185 (`poly_corr` a natural number or `None`). -/
noncomputable def characteristicFunction (k : ℕ) (s eta mu : ℝ) (maxIter : ℕ) (delta : ℝ) (polyCorrExp : Option ℕ) : ℝ :=
  let f := polyCorr polyCorrExp
  if s = 0 ∨ eta = 0 then f 0
  else
    let pref := Real.exp mu
    let term := fun i : ℕ => f i * totalPhotonNumberDistribution i k s eta pref
    characteristicLoop term maxIter delta maxIter 1 (term 0) (term 0)

end Verif.Model.Dist
