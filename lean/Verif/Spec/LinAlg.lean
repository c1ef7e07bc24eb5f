/-
Contracts of the numerical routines of numpy.linalg and scipy.linalg that thewalrus calls: what their documentation promises, in exact
arithmetic.  The first argument of a routine is the size of the array; entries outside the array are arbitrary.
-/
import Verif.Py
import Mathlib.LinearAlgebra.Matrix.PosDef
import Mathlib.LinearAlgebra.UnitaryGroup
import Mathlib.Analysis.Complex.Order
import Mathlib.Analysis.Complex.Basic
import Mathlib.Algebra.Polynomial.AlgebraMap
import Mathlib.Data.Matrix.Mul
import Mathlib.LinearAlgebra.Matrix.Charpoly.Basic
import Mathlib.LinearAlgebra.Matrix.NonsingularInverse
import Mathlib.Analysis.SpecialFunctions.Sqrt

namespace Verif.Spec
open Matrix
open scoped ComplexOrder

/-- a real array -/
abbrev RArr := ℕ → ℕ → ℝ
/-- a complex array -/
abbrev CArr := ℕ → ℕ → ℂ

/-- `scipy.linalg.sqrtm` of a positive definite matrix is its positive definite square root. -/
def SqrtmContract (sqrtm : ℕ → RArr → RArr) : Prop :=
  ∀ n M, (toMatrix n n M).PosDef → (toMatrix n n (sqrtm n M)).PosDef ∧ toMatrix n n (sqrtm n M) * toMatrix n n (sqrtm n M) = toMatrix n n M

/-- `scipy.linalg.sqrtm` of a diagonalisable matrix with non-negative eigenvalues takes the square roots of the eigenvalues. -/
def SqrtmDiagContract (sqrtm : ℕ → RArr → RArr) : Prop :=
  ∀ n M (T : Matrix (Fin n) (Fin n) ℝ) (d : Fin n → ℝ), IsUnit T.det → (∀ i, 0 ≤ d i) → toMatrix n n M = T * diagonal d * T⁻¹ →
    toMatrix n n (sqrtm n M) = T * diagonal (fun i => Real.sqrt (d i)) * T⁻¹

/-- `scipy.linalg.sqrtm` of a unitary matrix is a unitary square root that is a function (a polynomial) of the matrix. -/
def SqrtmUnitaryContract (sqrtm : ℕ → CArr → CArr) : Prop :=
  ∀ n M, toMatrix n n M ∈ unitaryGroup (Fin n) ℂ → toMatrix n n (sqrtm n M) ∈ unitaryGroup (Fin n) ℂ ∧
    toMatrix n n (sqrtm n M) * toMatrix n n (sqrtm n M) = toMatrix n n M ∧ ∃ p : Polynomial ℂ, toMatrix n n (sqrtm n M) = Polynomial.aeval (toMatrix n n M) p

/-- `scipy.linalg.qr`: `M = Q R`, `Q` orthogonal, `R` upper triangular. -/
def QrContract (qr : ℕ → RArr → RArr × RArr) : Prop :=
  ∀ n M, toMatrix n n (qr n M).1 ∈ orthogonalGroup (Fin n) ℝ ∧ (∀ i < n, ∀ j < i, (qr n M).2 i j = 0) ∧
    toMatrix n n (qr n M).1 * toMatrix n n (qr n M).2 = toMatrix n n M

/-- `scipy.linalg.qr` of a complex array: `M = Q R`, `Q` unitary, `R` upper triangular. -/
def QrContractC (qr : ℕ → CArr → CArr × CArr) : Prop :=
  ∀ n M, toMatrix n n (qr n M).1 ∈ unitaryGroup (Fin n) ℂ ∧ (∀ i < n, ∀ j < i, (qr n M).2 i j = 0) ∧
    toMatrix n n (qr n M).1 * toMatrix n n (qr n M).2 = toMatrix n n M

/-- `scipy.linalg.polar(S, side="left")` of an invertible matrix: `S = P V`, `V` orthogonal, `P` positive definite; returns `(V, P)`. -/
def PolarContract (polar : ℕ → RArr → RArr × RArr) : Prop :=
  ∀ n S, (toMatrix n n S).det ≠ 0 → toMatrix n n (polar n S).1 ∈ orthogonalGroup (Fin n) ℝ ∧ (toMatrix n n (polar n S).2).PosDef ∧
    toMatrix n n (polar n S).2 * toMatrix n n (polar n S).1 = toMatrix n n S

/-- `scipy.linalg.schur` (real) of an antisymmetric matrix: `M = Z T Zᵀ`, `Z` orthogonal, `T` quasi-upper-triangular: zero below the first
subdiagonal, and of two adjacent entries of the subdiagonal one is zero; returns `(T, Z)`. -/
def SchurContract (schur : ℕ → RArr → RArr × RArr) : Prop :=
  ∀ n M, (toMatrix n n M)ᵀ = -toMatrix n n M → toMatrix n n (schur n M).2 ∈ orthogonalGroup (Fin n) ℝ ∧ (∀ i < n, ∀ j, j + 1 < i → (schur n M).1 i j = 0) ∧
    (∀ i, i + 2 < n → (schur n M).1 (i + 1) i = 0 ∨ (schur n M).1 (i + 2) (i + 1) = 0) ∧
    toMatrix n n (schur n M).2 * toMatrix n n (schur n M).1 * (toMatrix n n (schur n M).2)ᵀ = toMatrix n n M

/-- `np.linalg.eigh` of a real symmetric matrix: ascending eigenvalues and an orthogonal matrix of eigenvectors; returns `(w, U)`. -/
def EighContract (eigh : ℕ → RArr → (ℕ → ℝ) × RArr) : Prop :=
  ∀ n M, (toMatrix n n M).IsSymm → toMatrix n n (eigh n M).2 ∈ orthogonalGroup (Fin n) ℝ ∧
    (∀ i j, i ≤ j → j < n → (eigh n M).1 i ≤ (eigh n M).1 j) ∧
    toMatrix n n (eigh n M).2 * diagonal (fun i : Fin n => (eigh n M).1 i) * (toMatrix n n (eigh n M).2)ᵀ = toMatrix n n M

/-- `np.linalg.svd`: `M = u diag(d) v`, `u`, `v` unitary, `d` non-negative and descending; returns `(u, d, v)`. -/
def SvdContract (svd : ℕ → CArr → CArr × (ℕ → ℝ) × CArr) : Prop :=
  ∀ n M, toMatrix n n (svd n M).1 ∈ unitaryGroup (Fin n) ℂ ∧ toMatrix n n (svd n M).2.2 ∈ unitaryGroup (Fin n) ℂ ∧
    (∀ i < n, 0 ≤ (svd n M).2.1 i) ∧ (∀ i j, i ≤ j → j < n → (svd n M).2.1 j ≤ (svd n M).2.1 i) ∧
    toMatrix n n (svd n M).1 * diagonal (fun i : Fin n => (((svd n M).2.1 i : ℝ) : ℂ)) * toMatrix n n (svd n M).2.2 = toMatrix n n M

/-- `np.argsort`: a permutation of the indices that puts the values in ascending order (any order among equal values). -/
def ArgsortContract (argsort : ℕ → (ℕ → ℝ) → ℕ → ℕ) : Prop :=
  ∀ n v, (∀ i < n, argsort n v i < n) ∧ (∀ i < n, ∀ j < n, argsort n v i = argsort n v j → i = j) ∧
    ∀ i j, i ≤ j → j < n → v (argsort n v i) ≤ v (argsort n v j)

/-- `np.linalg.eigvals` of a real matrix: the roots of the characteristic polynomial, with multiplicity; conjugate pairs with the one of
positive imaginary part first, adjacent to each other (as LAPACK's `geev` documents). -/
def EigvalsContract (eigvals : ℕ → RArr → ℕ → ℂ) : Prop :=
  ∀ n M, ((toMatrix n n M).map Complex.ofReal).charpoly = ∏ i ∈ Finset.range n, (Polynomial.X - Polynomial.C (eigvals n M i)) ∧
    ∃ pairs : List ℕ, (∀ i < n, (eigvals n M i).im = 0 ∨ i ∈ pairs ∨ ∃ j ∈ pairs, i = j + 1) ∧
      (∀ i ∈ pairs, i + 1 < n ∧ 0 < (eigvals n M i).im ∧ eigvals n M (i + 1) = (starRingEnd ℂ) (eigvals n M i)) ∧
      pairs.Pairwise fun i j => i + 1 < j ∨ j + 1 < i

/-- An Autonne-Takagi factorisation `B = U diag(r) Uᵀ`: `U` unitary, `r` non-negative, descending (`desc`) or ascending. -/
def IsTakagi (n : ℕ) (desc : Bool) (B : CArr) (r : ℕ → ℝ) (U : CArr) : Prop :=
  toMatrix n n U ∈ unitaryGroup (Fin n) ℂ ∧ (∀ i < n, 0 ≤ r i) ∧ (∀ i j, i ≤ j → j < n → if desc then r j ≤ r i else r i ≤ r j) ∧
    toMatrix n n U * diagonal (fun i : Fin n => ((r i : ℝ) : ℂ)) * (toMatrix n n U)ᵀ = toMatrix n n B

end Verif.Spec
