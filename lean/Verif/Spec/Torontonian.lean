/-
Specification vocabulary: torontonian and loop torontonian; the click distribution of threshold detectors on displaced Gaussian states.
-/
import Verif.Spec.Clicks
import Mathlib.LinearAlgebra.Matrix.NonsingularInverse
import Mathlib.Analysis.SpecialFunctions.Exp
import Mathlib.Analysis.Complex.Basic

namespace Verif.Spec
open Matrix

/-- the rows and columns of the modes in `S` of a `2n × 2n` array -/
def modeBlock {K : Type} (n : ℕ) (A : ℕ → ℕ → K) (S : Finset ℕ) : Matrix (S ⊕ S) (S ⊕ S) K :=
  of fun p q => A (modeQuad n S p) (modeQuad n S q)

/-- the entries of the modes in `S` of a vector of length `2n` -/
def modeVec {K : Type} (n : ℕ) (v : ℕ → K) (S : Finset ℕ) : S ⊕ S → K := fun p => v (modeQuad n S p)

/-- Torontonian of a `2n × 2n` array: `∑_S (-1)^(n-|S|) / √det(1 - A_S)` over the sets `S` of modes. -/
noncomputable def torontonian (n : ℕ) (A : ℕ → ℕ → ℂ) : ℂ :=
  ∑ S ∈ (Finset.range n).powerset, (-1) ^ (n - S.card) / (Real.sqrt (1 - modeBlock n A S).det.re : ℝ)

/-- Loop torontonian: `∑_S (-1)^(n-|S|) exp(½ γ_S (1 - A_S)⁻¹ γ_S^*) / √det(1 - A_S)`. -/
noncomputable def loopTorontonian (n : ℕ) (A : ℕ → ℕ → ℂ) (gamma : ℕ → ℂ) : ℂ :=
  ∑ S ∈ (Finset.range n).powerset,
    (-1) ^ (n - S.card) * Complex.exp (1 / 2 * (modeVec n gamma S ⬝ᵥ (1 - modeBlock n A S)⁻¹ *ᵥ fun p => (starRingEnd ℂ) (modeVec n gamma S p)))
      / (Real.sqrt (1 - modeBlock n A S).det.re : ℝ)

/-- The contract of `np.linalg.cholesky`: on a positive definite matrix `M` it returns the lower triangular `L` with positive real diagonal and
`L Lᴴ = M` (entries outside the array are arbitrary). -/
def CholeskyContract {E : Type} (chol : ℕ → (ℕ → ℕ → ℂ) → Except E (ℕ → ℕ → ℂ)) : Prop :=
  ∀ (d : ℕ) (M : ℕ → ℕ → ℂ), (∀ x : Fin d → ℂ, x ≠ 0 → 0 < (∑ i : Fin d, ∑ j : Fin d, (starRingEnd ℂ) (x i) * M i j * x j).re) →
    (∀ i < d, ∀ j < d, M i j = (starRingEnd ℂ) (M j i)) →
    ∃ L, chol d M = .ok L ∧ (∀ i < d, ∀ j < d, i < j → L i j = 0) ∧ (∀ i < d, ∃ r : ℝ, 0 < r ∧ L i i = r) ∧
      ∀ i < d, ∀ j < d, ∑ k : Fin d, L i k * (starRingEnd ℂ) (L j k) = M i j

/-- Probability that none of the modes in `S` holds a photon, in the Gaussian state with means `mu` and covariance matrix `cov`: the overlap
`exp(-½ μ_Sᵀ (V_S + ħ/2)⁻¹ μ_S) / √det((V_S + ħ/2)/ħ)` with the vacuum of the modes in `S`. -/
noncomputable def vacProbD (N : ℕ) (mu : ℕ → ℝ) (cov : ℕ → ℕ → ℝ) (hbar : ℝ) (S : Finset ℕ) : ℝ :=
  Real.exp (-(1 / 2) * (modeVec N mu S ⬝ᵥ (modeBlock N cov S + (hbar / 2) • 1)⁻¹ *ᵥ modeVec N mu S)) * vacProb N cov hbar S

/-- probability of the pattern "exactly the detectors in `C`, out of those of all `N` modes, click", by inclusion–exclusion from the vacuum
probabilities -/
noncomputable def clickProb (N : ℕ) (mu : ℕ → ℝ) (cov : ℕ → ℕ → ℝ) (hbar : ℝ) (C : Finset ℕ) : ℝ :=
  ∑ Z ∈ C.powerset, (-1) ^ Z.card * vacProbD N mu cov hbar ((Finset.range N \ C) ∪ Z)

end Verif.Spec
