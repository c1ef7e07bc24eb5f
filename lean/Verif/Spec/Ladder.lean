/-
Specification vocabulary: first and second moments of the ladder operators of a Gaussian state, read off its means and covariance matrix.
Index `i < N` stands for the creation operator of mode `i`, index `N + i` for its annihilation operator, in the listed order
`a†_0 … a†_{N-1} a_0 … a_{N-1}`; `a_k = (x_k + i p_k)/√(2ħ)`.
-/
import Mathlib.Data.Complex.Basic
import Mathlib.Analysis.SpecialFunctions.Sqrt
import Verif.Spec.Matching
import Mathlib.Algebra.Module.LinearMap.Defs
import Mathlib.Data.Nat.Factorial.Basic

namespace Verif.Spec

/-- Kronecker delta -/
def kd (i j : ℕ) : ℂ := if i = j then 1 else 0

/-- `⟨a†_i⟩` and `⟨a_i⟩`. -/
noncomputable def ladderMean (N : ℕ) (mu : ℕ → ℝ) (hbar : ℝ) (i : ℕ) : ℂ :=
  if i < N then (⟨mu i, -mu (N + i)⟩ : ℂ) / (Real.sqrt (2 * hbar) : ℝ) else (⟨mu (i - N), mu (N + (i - N))⟩ : ℂ) / (Real.sqrt (2 * hbar) : ℝ)

/-- `⟨a†_i a_j⟩ - ⟨a†_i⟩⟨a_j⟩` in the `s`-ordering (`s = 1`: creation operators to the left; `s = 0`: symmetrised; `s = -1`: to the right). -/
noncomputable def covNumber (N : ℕ) (cov : ℕ → ℕ → ℝ) (hbar s : ℝ) (i j : ℕ) : ℂ :=
  (⟨cov i j + cov (N + i) (N + j), cov i (N + j) - cov j (N + i)⟩ : ℂ) / (2 * hbar : ℝ) - (s / 2 : ℝ) * kd i j

/-- `⟨a_i a_j⟩ - ⟨a_i⟩⟨a_j⟩`. -/
noncomputable def covPair (N : ℕ) (cov : ℕ → ℕ → ℝ) (hbar : ℝ) (i j : ℕ) : ℂ :=
  (⟨cov i j - cov (N + i) (N + j), cov i (N + j) + cov j (N + i)⟩ : ℂ) / (2 * hbar : ℝ)

/-- The covariances of the ladder operators. -/
noncomputable def ladderCov (N : ℕ) (cov : ℕ → ℕ → ℝ) (hbar s : ℝ) (i j : ℕ) : ℂ :=
  if i < N then (if j < N then (starRingEnd ℂ) (covPair N cov hbar i j) else covNumber N cov hbar s i (j - N))
  else (if j < N then covNumber N cov hbar s j (i - N) else covPair N cov hbar (i - N) (j - N))

/-- Expectation value of the `s`-ordered product of the listed ladder operators in the Gaussian state with means `mu` and covariance matrix
`cov` (Wick's theorem): the sum over all ways of pairing up some of the operators, of the covariances of the pairs times the means of the
operators left alone. -/
noncomputable def moment (N : ℕ) (mu : ℕ → ℝ) (cov : ℕ → ℕ → ℝ) (hbar s : ℝ) (ops : List ℕ) : ℂ :=
  Spec.lhaf (Matrix.of fun p q : Fin ops.length => if p = q then ladderMean N mu hbar ops[p] else ladderCov N cov hbar s ops[p] ops[q])

/-- `⟨n_j⟩` for the photon number `n_j = a†_j a_j`. -/
noncomputable def numberMean (N : ℕ) (mu : ℕ → ℝ) (cov : ℕ → ℕ → ℝ) (hbar : ℝ) (j : ℕ) : ℂ := moment N mu cov hbar 1 [j, N + j]

/-- `⟨n_j n_k⟩`; for `j = k` the commutator gives `n² = a†a†aa + a†a`. -/
noncomputable def numberCorr (N : ℕ) (mu : ℕ → ℝ) (cov : ℕ → ℕ → ℝ) (hbar : ℝ) (j k : ℕ) : ℂ :=
  if j = k then moment N mu cov hbar 1 [j, j, N + j, N + j] + moment N mu cov hbar 1 [j, N + j]
  else moment N mu cov hbar 1 [j, k, N + j, N + k]

/-- `E` is an expectation functional for the photon numbers of the state: a linear functional on functions of the photon numbers
`n 0, …, n (N-1)` whose factorial moments `⟨∏_j n_j (n_j - 1) ⋯ (n_j - k_j + 1)⟩` are the normally ordered moments
`⟨∏_j a†_j^{k_j} ∏_j a_j^{k_j}⟩` of the state. -/
def NumberStats (N : ℕ) (mu : ℕ → ℝ) (cov : ℕ → ℕ → ℝ) (hbar : ℝ) (E : ((ℕ → ℕ) → ℂ) →ₗ[ℂ] ℂ) : Prop :=
  ∀ k : List ℕ, k.length = N →
    E (fun n => ∏ j ∈ Finset.range N, ((n j).descFactorial (k.getD j 0) : ℂ)) = moment N mu cov hbar 1 (repeatedIndices (k ++ k))

end Verif.Spec
