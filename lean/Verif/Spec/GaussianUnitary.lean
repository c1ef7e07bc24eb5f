/-
Specification of Gaussian unitaries in the Fock basis: the Heisenberg picture.
-/
import Verif.Spec.FockGates
import Verif.Spec.PhaseSpace
import Mathlib.Topology.Algebra.InfiniteSum.Defs
import Mathlib.LinearAlgebra.Matrix.ConjTranspose

namespace Verif.Spec
open Matrix

noncomputable section

/-- `U i j = ⟨i|U|j⟩` are the matrix elements of an operator with `a_k U = U (Σ_m (E_km a_m + F_km a_m†) + α_k)` for all modes `k`, and the adjoint relations
`a_k† U = U (Σ_m (conj E_km a_m† + conj F_km a_m) + conj α_k)`.  (`a_k` takes `|n⟩` to `√n_k |n - 1_k⟩`.) -/
structure Heisenberg {ι : Type} [Fintype ι] [DecidableEq ι] (E F : Matrix ι ι ℂ) (α : ι → ℂ) (U : (ι → ℕ) → (ι → ℕ) → ℂ) : Prop where
  ann : ∀ k i j, root (i k + 1) * U (i + Pi.single k 1) j =
    (∑ m, (E k m * (root (j m) * U i (j - Pi.single m 1)) + F k m * (root (j m + 1) * U i (j + Pi.single m 1)))) + α k * U i j
  cre : ∀ k i j, root (i k) * U (i - Pi.single k 1) j =
    (∑ m, ((starRingEnd ℂ) (E k m) * (root (j m + 1) * U i (j + Pi.single m 1)) + (starRingEnd ℂ) (F k m) * (root (j m) * U i (j - Pi.single m 1)))) +
      (starRingEnd ℂ) (α k) * U i j

/-- The infinite matrix `U` is unitary: its columns are orthonormal, and so are its rows. -/
structure IsUnitaryFock {I : Type} [DecidableEq I] (U : I → I → ℂ) : Prop where
  cols : ∀ j k, HasSum (fun i => (starRingEnd ℂ) (U i j) * U i k) (if j = k then 1 else 0)
  rows : ∀ j k, HasSum (fun i => (starRingEnd ℂ) (U j i) * U k i) (if j = k then 1 else 0)

/-- The matrix `E` of the Heisenberg relations of the Gaussian unitary that maps the quadratures `r = (x, p)` to `S r`, from `a = (x + ip)/√(2ħ)`. -/
def bogE {ι : Type} (S : Matrix (ι ⊕ ι) (ι ⊕ ι) ℝ) : Matrix ι ι ℂ :=
  of fun k m => ⟨(S (.inl k) (.inl m) + S (.inr k) (.inr m)) / 2, (S (.inr k) (.inl m) - S (.inl k) (.inr m)) / 2⟩

/-- The matrix `F` of the Heisenberg relations. -/
def bogF {ι : Type} (S : Matrix (ι ⊕ ι) (ι ⊕ ι) ℝ) : Matrix ι ι ℂ :=
  of fun k m => ⟨(S (.inl k) (.inl m) - S (.inr k) (.inr m)) / 2, (S (.inr k) (.inl m) + S (.inl k) (.inr m)) / 2⟩

/-- The operator with matrix elements `U` is the Gaussian unitary that maps the quadratures `r` to `S r` plus the displacement `α`: it is unitary and satisfies the
Heisenberg relations.  These determine it up to a phase (`Verif.Props.gaussianUnitary_unique`). -/
structure IsGaussianUnitary {ι : Type} [Fintype ι] [DecidableEq ι] (S : Matrix (ι ⊕ ι) (ι ⊕ ι) ℝ) (α : ι → ℂ) (U : (ι → ℕ) → (ι → ℕ) → ℂ) : Prop where
  heisenberg : Heisenberg (bogE S) (bogF S) α U
  unitary : IsUnitaryFock U

end

end Verif.Spec
