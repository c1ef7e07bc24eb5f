/-
Specification of the hafnian and the loop hafnian.

A perfect matching of `n` vertices is a fixed-point-free involution of `Fin n` (vertex `i` is matched to `σ i`);
a matching with loops is any involution (a fixed point is a vertex with a loop).
The weight of a matching is the product of the matrix entries over its edges, each edge `{i, σ i}` taken
once (`i < σ i`), and, with loops, of the diagonal entries of fixed points.
-/
import Mathlib.Algebra.BigOperators.Group.Finset.Basic
import Mathlib.Data.Fintype.Perm
import Mathlib.Data.Matrix.Basic

namespace Verif.Spec

variable {K : Type*} [CommSemiring K]

/-- Sum over perfect matchings. -/
def haf {n : ℕ} (M : Matrix (Fin n) (Fin n) K) : K :=
  ∑ σ : Equiv.Perm (Fin n) with (∀ i, σ (σ i) = i) ∧ (∀ i, σ i ≠ i),
    ∏ i : Fin n with i < σ i, M i (σ i)

/-- Sum over matchings with loops. -/
def lhaf {n : ℕ} (M : Matrix (Fin n) (Fin n) K) : K :=
  ∑ σ : Equiv.Perm (Fin n) with (∀ i, σ (σ i) = i),
    ∏ i : Fin n with i ≤ σ i, M i (σ i)

/-- The list in which index `i` occurs `rpt[i]` times, in order. -/
def repeatedIndices (rpt : List ℕ) : List ℕ :=
  (List.range rpt.length).flatMap fun i => List.replicate (rpt.getD i 0) i

/-- The matrix with row/column `i` of `A` repeated `rpt[i]` times. -/
def repeatedMatrix (A : ℕ → ℕ → K) (rpt : List ℕ) :
    Matrix (Fin (repeatedIndices rpt).length) (Fin (repeatedIndices rpt).length) K :=
  Matrix.of fun p q => A ((repeatedIndices rpt)[p]) ((repeatedIndices rpt)[q])

/-- The same with the diagonal replaced by the repeated vector `mu` (the loop weights). -/
def repeatedMatrixLoop (A : ℕ → ℕ → K) (mu : ℕ → K) (rpt : List ℕ) :
    Matrix (Fin (repeatedIndices rpt).length) (Fin (repeatedIndices rpt).length) K :=
  Matrix.of fun p q => if p = q then mu ((repeatedIndices rpt)[p])
    else A ((repeatedIndices rpt)[p]) ((repeatedIndices rpt)[q])

end Verif.Spec
