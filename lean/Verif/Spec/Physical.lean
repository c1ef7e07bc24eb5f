/-
Specification of physical and of classical covariance matrices.
-/
import Verif.Spec.PhaseSpace
import Mathlib.LinearAlgebra.Matrix.PosDef
import Mathlib.Analysis.Complex.Order
import Mathlib.Analysis.Complex.Basic

namespace Verif.Spec
open scoped ComplexOrder

/-- The commutator matrix `[[0, 1], [-1, 0]]` in the ordering `x_0, …, p_0, …`. -/
def omega (N : ℕ) : Matrix (Fin N ⊕ Fin N) (Fin N ⊕ Fin N) ℂ := -Matrix.J (Fin N) ℂ

/-- The uncertainty relation: `V` is symmetric and `V + i (ħ/2) Ω ≥ 0`. -/
def Physical {N : ℕ} (V : Matrix (Fin N ⊕ Fin N) (Fin N ⊕ Fin N) ℝ) (hbar : ℝ) : Prop :=
  V.IsSymm ∧ (V.map Complex.ofReal + (Complex.I * (hbar / 2 : ℝ)) • omega N).PosSemidef

/-- A physical state with a positive `P` function: moreover `V ≥ ħ/2`. -/
def Classical {N : ℕ} (V : Matrix (Fin N ⊕ Fin N) (Fin N ⊕ Fin N) ℝ) (hbar : ℝ) : Prop :=
  Physical V hbar ∧ (V - (hbar / 2) • (1 : Matrix (Fin N ⊕ Fin N) (Fin N ⊕ Fin N) ℝ)).PosSemidef

end Verif.Spec
