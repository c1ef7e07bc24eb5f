/-
Model of thewalrus/quantum/conversions.py (`reduced_gaussian` is in Model/Symplectic.lean).  Arrays of size `2N × 2N`; an odd size, for which
numpy refuses to assemble the blocks, is not modelled.
-/
import Verif.Model.Symplectic
import Mathlib.LinearAlgebra.Matrix.NonsingularInverse

namespace Verif.Model.Conv
open Verif.Model.Symp

noncomputable section

/-- `Xmat`, thewalrus/quantum/conversions.py:55-67. -/
def Xmat {K : Type} [Field K] (N : ℕ) : ℕ → ℕ → K := block N N (fun _ _ => 0) eye eye (fun _ _ => 0)

/-- `Qmat`, thewalrus/quantum/conversions.py:70-96. -/
def Qmat (N : ℕ) (cov : ℕ → ℕ → ℝ) (hbar : ℝ) : ℕ → ℕ → ℂ :=
  let x : ℕ → ℕ → ℝ := fun i j => cov i j * 2 / hbar
  let xp : ℕ → ℕ → ℝ := fun i j => cov i (N + j) * 2 / hbar
  let p : ℕ → ℕ → ℝ := fun i j => cov (N + i) (N + j) * 2 / hbar
  let aidaj : ℕ → ℕ → ℂ := fun i j => (x i j + p i j + Complex.I * (xp i j - xp j i) - 2 * eye i j) / 4
  let aiaj : ℕ → ℕ → ℂ := fun i j => (x i j - p i j + Complex.I * (xp i j + xp j i)) / 4
  fun i j => block N N aidaj (fun i j => (starRingEnd ℂ) (aiaj i j)) aiaj (fun i j => (starRingEnd ℂ) (aidaj i j)) i j + eye i j

/-- `Covmat`, thewalrus/quantum/conversions.py:99-121. -/
def Covmat (n : ℕ) (Q : ℕ → ℕ → ℂ) (hbar : ℝ) : ℕ → ℕ → ℝ :=
  let N : ℕ → ℕ → ℂ := fun i j => Q i j - eye i j
  let M : ℕ → ℕ → ℂ := fun i j => Q (n + i) j
  let mm11a : ℕ → ℕ → ℝ := fun i j => 2 * ((N i j).re + (M i j).re) + eye i j
  let mm22a : ℕ → ℕ → ℝ := fun i j => 2 * ((N i j).re - (M i j).re) + eye i j
  let mm12a : ℕ → ℕ → ℝ := fun i j => 2 * ((M i j).im + (N i j).im)
  fun i j => (hbar / 2) * block n n mm11a mm12a (tr mm12a) mm22a i j

/-- `np.linalg.inv` of an `n × n` array: raises `LinAlgError` on a singular matrix.  Entries outside the array are zero. -/
def npInv (n : ℕ) (A : ℕ → ℕ → ℂ) : Except PyErr (ℕ → ℕ → ℂ) :=
  if (toMatrix n n A).det = 0 then .error .linAlgError
  else .ok (Verif.ofMatrix (toMatrix n n A)⁻¹ fun _ _ => 0)

/-- `Amat`, thewalrus/quantum/conversions.py:124-150, from the `Q` matrix (`cov_is_qmat=True`). -/
def AmatQ (N : ℕ) (Q : ℕ → ℕ → ℂ) : Except PyErr (ℕ → ℕ → ℂ) := do
  let Qinv ← npInv (2 * N) Q
  pure (mmul (2 * N) (Xmat N) fun i j => (starRingEnd ℂ) (eye i j - Qinv i j))

/-- `Amat`, thewalrus/quantum/conversions.py:124-150, from a covariance matrix. -/
def Amat (N : ℕ) (cov : ℕ → ℕ → ℝ) (hbar : ℝ) : Except PyErr (ℕ → ℕ → ℂ) := AmatQ N (Qmat N cov hbar)

/-- `complex_to_real_displacements`, thewalrus/quantum/conversions.py:153-169. -/
def complexToReal (N : ℕ) (mu : ℕ → ℝ) (hbar : ℝ) : ℕ → ℂ :=
  let alpha : ℕ → ℂ := fun k => (mu k + Complex.I * mu (N + k)) / (Real.sqrt (2 * hbar) : ℝ)
  fun i => if i < N then alpha i else (starRingEnd ℂ) (alpha (i - N))

/-- `real_to_complex_displacements`, thewalrus/quantum/conversions.py:172-187. -/
def realToComplex (N : ℕ) (beta : ℕ → ℂ) (hbar : ℝ) : ℕ → ℝ :=
  fun i => Real.sqrt (2 * hbar) * if i < N then (beta i).re else (beta (i - N)).im

end

end Verif.Model.Conv
