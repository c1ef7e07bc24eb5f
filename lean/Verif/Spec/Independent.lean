/-
Specification of two independent systems: a Gaussian state of `N + M` modes whose first `N` and last `M` modes are uncorrelated.
-/
import Verif.Model.Symplectic

namespace Verif.Spec

open Verif.Model.Symp

/-- The position, among the `2 (N + M)` quadratures `(x, p)` of the joint system, of the `i`-th of the `2 N` quadratures of the first system. -/
def firstQuad (N M i : ℕ) : ℕ := if i < N then i else i + M

/-- The position, among the `2 (N + M)` quadratures `(x, p)` of the joint system, of the `j`-th of the `2 M` quadratures of the second system. -/
def secondQuad (N M j : ℕ) : ℕ := if j < M then N + j else N + N + j

/-- The state `s` consists of the states `s₁` of the first `N` modes and `s₂` of the last `M` modes, without correlations. -/
structure Independent (N M : ℕ) (s s₁ s₂ : GState ℝ) : Prop where
  mean₁ : ∀ i < 2 * N, s.mu (firstQuad N M i) = s₁.mu i
  mean₂ : ∀ j < 2 * M, s.mu (secondQuad N M j) = s₂.mu j
  cov₁ : ∀ i < 2 * N, ∀ i' < 2 * N, s.cov (firstQuad N M i) (firstQuad N M i') = s₁.cov i i'
  cov₂ : ∀ j < 2 * M, ∀ j' < 2 * M, s.cov (secondQuad N M j) (secondQuad N M j') = s₂.cov j j'
  cross : ∀ i < 2 * N, ∀ j < 2 * M, s.cov (firstQuad N M i) (secondQuad N M j) = 0 ∧ s.cov (secondQuad N M j) (firstQuad N M i) = 0

end Verif.Spec
