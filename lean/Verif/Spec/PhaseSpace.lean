/-
Specification vocabulary for phase space: quadrature indices, block matrices, complex amplitudes.
The array layout is `x_0, …, x_{N-1}, p_0, …, p_{N-1}` ("xxpp").
-/
import Mathlib.LinearAlgebra.SymplecticGroup
import Mathlib.Data.Complex.Basic
import Mathlib.LinearAlgebra.UnitaryGroup

namespace Verif.Spec

/-- Array index of a quadrature: `x_k ↦ k`, `p_k ↦ N + k`. -/
def quad (N : ℕ) : Fin N ⊕ Fin N → ℕ := Sum.elim (fun k => (k : ℕ)) (fun k => N + k)

/-- The `2M × 2N` corner of an array as a block matrix. -/
def phase {K : Type} (M N : ℕ) (A : ℕ → ℕ → K) : Matrix (Fin M ⊕ Fin M) (Fin N ⊕ Fin N) K :=
  Matrix.of fun p q => A (quad M p) (quad N q)

/-- The first `2N` entries of a vector, by quadrature. -/
def phaseVec {K : Type} (N : ℕ) (v : ℕ → K) : Fin N ⊕ Fin N → K := fun p => v (quad N p)

/-- `S` preserves the canonical commutation relations: its `2N × 2N` corner is in the symplectic group `{S | S Ω Sᵀ = Ω}`. -/
def IsSymp {K : Type} [Field K] (N : ℕ) (S : ℕ → ℕ → K) : Prop := phase N N S ∈ Matrix.symplecticGroup (Fin N) K

/-- Complex amplitude `x_k + i p_k` of mode `k` of a phase-space vector of `N` modes. -/
noncomputable def amp (N : ℕ) (v : ℕ → ℝ) (k : ℕ) : ℂ := ⟨v k, v (N + k)⟩

/-- `S v` for an `n × m` array. -/
def apply {K : Type} [AddCommMonoid K] [Mul K] (m : ℕ) (S : ℕ → ℕ → K) (v : ℕ → K) : ℕ → K :=
  fun i => ∑ j ∈ Finset.range m, S i j * v j

end Verif.Spec
