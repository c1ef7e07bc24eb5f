/-
Model of thewalrus/quantum/gaussian_checks.py (`is_symplectic` is in Model/Symplectic.lean) and of `find_classical_subsystem` of
thewalrus/quantum/fock_tensors.py.
-/
import Verif.Model.Symplectic
import Mathlib.Analysis.Matrix.Spectrum

namespace Verif.Model.Checks
open Verif.Model Verif.Model.Symp

noncomputable section

/-- The Hermitian matrix that `np.linalg.eigvalsh` works on: it reads the lower triangle only (and the real part of the diagonal). -/
def lowerHerm (n : ℕ) (A : ℕ → ℕ → ℂ) : Matrix (Fin n) (Fin n) ℂ :=
  Matrix.of fun i j => if (j : ℕ) < i then A i j else if i = j then ((A i i).re : ℂ) else (starRingEnd ℂ) (A j i)

theorem lowerHerm_isHermitian (n : ℕ) (A : ℕ → ℕ → ℂ) : (lowerHerm n A).IsHermitian := by
  ext i j
  simp only [Matrix.conjTranspose_apply, lowerHerm, Matrix.of_apply]
  rcases lt_trichotomy (i : ℕ) j with h | h | h
  · have h1 : ¬ (j : ℕ) < i := by omega
    have h2 : i ≠ j := fun e => by rw [e] at h; omega
    simp [h, h1, h2]
  · have h2 : i = j := Fin.ext h
    simp [h2]
  · have h1 : ¬ (i : ℕ) < j := by omega
    have h2 : i ≠ j := fun e => by rw [e] at h; omega
    simp [h, h1, Ne.symm h2]

/-- `vals = np.linalg.eigvalsh(A); vals[np.abs(vals) < atol] = 0.0; np.all(vals >= 0)`,
thewalrus/quantum/gaussian_checks.py:51-54 and 96-99. -/
def nonnegEig (n : ℕ) (A : ℕ → ℕ → ℂ) (atol : ℝ) : Bool :=
  let vals := (lowerHerm_isHermitian n A).eigenvalues
  decide (∀ i, (if |vals i| < atol then 0 else vals i) ≥ 0)

/-- `is_valid_cov`, thewalrus/quantum/gaussian_checks.py:26-58, for an `n × m` array; `close` is the elementwise test of `np.allclose`. -/
def isValidCov (close : ℝ → ℝ → Bool) (n m : ℕ) (cov : ℕ → ℕ → ℝ) (hbar atol : ℝ) : Bool :=
  if n ≠ m then false
  else if ¬ allClose2 close n n cov (tr cov) then false
  else if n % 2 ≠ 0 then false
  else nonnegEig n (fun i j => (cov i j : ℂ) + 1 / 2 * Complex.I * hbar * sympmat (n / 2) i j) atol

/-- `is_pure_cov`, thewalrus/quantum/gaussian_checks.py:61-80. -/
def isPureCov (close : ℝ → ℝ → Bool) (n m : ℕ) (cov : ℕ → ℕ → ℝ) (hbar atol : ℝ) : Bool :=
  if isValidCov close n m cov hbar atol then
    let purity := 1 / Real.sqrt (toMatrix n n fun i j => 2 * cov i j / hbar).det
    if close purity 1 then true else false
  else false

/-- `is_classical_cov`, thewalrus/quantum/gaussian_checks.py:83-102. -/
def isClassicalCov (close : ℝ → ℝ → Bool) (n m : ℕ) (cov : ℕ → ℕ → ℝ) (hbar atol : ℝ) : Bool :=
  if isValidCov close n m cov hbar atol then
    nonnegEig n (fun i j => (cov i j : ℂ) - 1 / 2 * hbar * eye i j) atol
  else false

/-- The loop of `find_classical_subsystem`, thewalrus/quantum/fock_tensors.py:559-563, with a bound on the number of iterations (theorems show
it is never reached). -/
def classicalLoop (close : ℝ → ℝ → Bool) (s : GState ℝ) (hbar atol : ℝ) : ℕ → ℕ → Except PyErr ℕ
  | 0, _ => .error .outOfFuel
  | fuel + 1, k => do
    let r ← reducedGaussian s (List.range (k + 1))
    if isClassicalCov close r.len r.len r.cov hbar atol then classicalLoop close s hbar atol fuel (k + 1)
    else pure (k + 1 - 1)

/-- `find_classical_subsystem`, thewalrus/quantum/fock_tensors.py:540-563, for an `n × n` array. -/
def findClassicalSubsystem (close : ℝ → ℝ → Bool) (n : ℕ) (cov : ℕ → ℕ → ℝ) (hbar atol : ℝ) : Except PyErr ℕ :=
  if isClassicalCov close n n cov hbar atol then pure (n / 2)
  else classicalLoop close { len := n, mu := fun _ => 0, cov := cov } hbar atol (n + 1) 0

end

end Verif.Model.Checks
