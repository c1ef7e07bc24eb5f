/-
Specification vocabulary: expectation values of products of ladder operators in a density matrix given in the Fock basis.
Operators are numbered as in `Verif.Spec.Ladder`: `x < N` is the creation operator of mode `x`, `N + k` the annihilation operator of mode `k`.
-/
import Verif.Spec.Ladder
import Mathlib.Analysis.Complex.Basic
import Mathlib.Topology.Algebra.InfiniteSum.Defs

namespace Verif.Spec

variable {N : ℕ}

/-- The ladder operator number `x` applied to a vector of Fock amplitudes: `(a† ψ)(n) = √n ψ(n-1)`, `(a ψ)(n) = √(n+1) ψ(n+1)` in the mode of the operator. -/
noncomputable def ladderAct (x : ℕ) (ψ : (Fin N → ℕ) → ℂ) : (Fin N → ℕ) → ℂ := fun n =>
  if h : x < N then (Real.sqrt (n ⟨x, h⟩) : ℂ) * ψ (n - Pi.single ⟨x, h⟩ 1)
  else if h : x - N < N then (Real.sqrt (n ⟨x - N, h⟩ + 1) : ℂ) * ψ (n + Pi.single ⟨x - N, h⟩ 1) else 0

/-- A product of ladder operators applied to a vector; the last operator of the list acts first. -/
noncomputable def wordAct (ops : List ℕ) (ψ : (Fin N → ℕ) → ℂ) : (Fin N → ℕ) → ℂ := ops.foldr ladderAct ψ

/-- The Fock state `|n⟩`. -/
def fockVec (n : Fin N → ℕ) : (Fin N → ℕ) → ℂ := fun m => if m = n then 1 else 0

/-- `v` is the expectation value `tr(ρ O) = Σ_{n,m} ⟨n|ρ|m⟩⟨m|O|n⟩` of the product `O` of the listed ladder operators, the double series converging absolutely. -/
def IsExpectation (ρ : (Fin N → ℕ) → (Fin N → ℕ) → ℂ) (ops : List ℕ) (v : ℂ) : Prop :=
  HasSum (fun q : (Fin N → ℕ) × (Fin N → ℕ) => ρ q.1 q.2 * wordAct ops (fockVec q.1) q.2) v

/-- `⟨O_x O_y⟩ - ⟨O_x⟩⟨O_y⟩` for two ladder operators in this order. -/
noncomputable def orderedCov (N : ℕ) (cov : ℕ → ℕ → ℝ) (hbar : ℝ) (x y : ℕ) : ℂ :=
  if N ≤ x ∧ y < N then ladderCov N cov hbar (-1) x y else ladderCov N cov hbar 1 x y

end Verif.Spec
