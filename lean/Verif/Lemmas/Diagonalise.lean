/-
Real matrices annihilated by a polynomial with simple real roots are diagonalisable; matrices with the same determinants `det (t - A)`.
-/
import Mathlib.LinearAlgebra.Lagrange
import Mathlib.LinearAlgebra.Basis.VectorSpace
import Mathlib.LinearAlgebra.Matrix.NonsingularInverse
import Mathlib.LinearAlgebra.Matrix.Charpoly.Basic
import Mathlib.LinearAlgebra.Matrix.ToLin
import Mathlib.LinearAlgebra.FiniteDimensional.Lemmas
import Mathlib.Data.Real.Basic

namespace Verif.Lemmas.Diag
open Matrix Polynomial

variable {n : Type} [Fintype n] [DecidableEq n]

/-- the eigenvectors of `A` for the numbers in `Λ` -/
def eig (A : Matrix n n ℝ) (Λ : Finset ℝ) : Set (n → ℝ) := {v | ∃ l ∈ Λ, A *ᵥ v = l • v}

theorem span_eig (A : Matrix n n ℝ) (Λ : Finset ℝ) (h : aeval A (∏ l ∈ Λ, (X - C l)) = 0) (hne : Λ.Nonempty) : ⊤ ≤ Submodule.span ℝ (eig A Λ) := by
  intro v _
  have h1 := Lagrange.sum_basis (F := ℝ) (s := Λ) (v := id) (fun x _ y _ e => e) hne
  have h2 : v = ∑ l ∈ Λ, (aeval A (Lagrange.basis Λ id l)) *ᵥ v := by
    rw [← Matrix.sum_mulVec, ← map_sum, h1, map_one, Matrix.one_mulVec]
  rw [h2]
  refine Submodule.sum_mem _ fun l hl => Submodule.subset_span ⟨l, hl, ?_⟩
  have h3 : (X - C l) * Lagrange.basis Λ id l = C (∏ j ∈ Λ.erase l, (l - j)⁻¹) * ∏ l ∈ Λ, (X - C l) := by
    rw [Lagrange.basis, ← Finset.mul_prod_erase Λ _ hl, map_prod]
    simp only [Lagrange.basisDivisor, id]
    rw [Finset.prod_mul_distrib]
    ring
  have h4 : (A - algebraMap ℝ _ l) * aeval A (Lagrange.basis Λ id l) = 0 := by
    have := congrArg (aeval A) h3
    rw [map_mul, map_mul, h, mul_zero] at this
    simpa using this
  rw [Matrix.mulVec_mulVec, ← sub_eq_zero]
  have h5 : l • (aeval A (Lagrange.basis Λ id l) *ᵥ v) = (algebraMap ℝ (Matrix n n ℝ) l * aeval A (Lagrange.basis Λ id l)) *ᵥ v := by
    rw [Algebra.algebraMap_eq_smul_one, Matrix.smul_mul, Matrix.one_mul, Matrix.smul_mulVec]
  rw [h5, ← Matrix.sub_mulVec, ← Matrix.sub_mul, h4, Matrix.zero_mulVec]

/-- a matrix annihilated by a polynomial with simple real roots is diagonalisable -/
theorem exists_diagonal (A : Matrix n n ℝ) (Λ : Finset ℝ) (h : aeval A (∏ l ∈ Λ, (X - C l)) = 0) (hne : Λ.Nonempty) :
    ∃ (T : Matrix n n ℝ) (d : n → ℝ), IsUnit T.det ∧ (∀ i, d i ∈ Λ) ∧ A = T * diagonal d * T⁻¹ := by
  classical
  have hs := span_eig A Λ h hne
  let b := Module.Basis.ofSpan hs
  have hb : ∀ i, b i ∈ eig A Λ := fun i => Module.Basis.ofSpan_subset hs ⟨i, rfl⟩
  haveI : Finite _ := Module.Finite.finite_basis b
  haveI := Fintype.ofFinite ((linearIndepOn_empty ℝ (id : (n → ℝ) → n → ℝ)).extend (Set.empty_subset (eig A Λ)))
  have hc : Fintype.card ((linearIndepOn_empty ℝ (id : (n → ℝ) → n → ℝ)).extend (Set.empty_subset (eig A Λ))) = Fintype.card n := by
    rw [← Module.finrank_eq_card_basis b, Module.finrank_fintype_fun_eq_card]
  let c := b.reindex (Fintype.equivOfCardEq hc)
  have hcm : ∀ i, ∃ l ∈ Λ, A *ᵥ c i = l • c i := fun i => by
    rw [Module.Basis.reindex_apply]; exact hb _
  choose d hd hd2 using hcm
  refine ⟨(of fun i j => c j i), d, ?_, hd, ?_⟩
  · rw [← Matrix.isUnit_iff_isUnit_det, ← Matrix.linearIndependent_cols_iff_isUnit]
    exact c.linearIndependent
  · have hu : IsUnit (of fun i j => c j i : Matrix n n ℝ).det := by
      rw [← Matrix.isUnit_iff_isUnit_det, ← Matrix.linearIndependent_cols_iff_isUnit]
      exact c.linearIndependent
    have e : A * (of fun i j => c j i) = (of fun i j => c j i) * diagonal d := by
      ext i j
      rw [mul_diagonal]
      have := congrFun (hd2 j) i
      simp only [Pi.smul_apply, smul_eq_mul] at this
      rw [of_apply, mul_comm, ← this]
      rfl
    rw [← e, Matrix.mul_assoc, mul_nonsing_inv _ hu, Matrix.mul_one]

/-- matrices with the same determinants `det (t - A)` for all positive `t` have the same characteristic polynomial -/
theorem charpoly_of_det (A B : Matrix n n ℝ) (h : ∀ t : ℝ, 0 < t → (t • (1 : Matrix n n ℝ) - A).det = (t • (1 : Matrix n n ℝ) - B).det) : A.charpoly = B.charpoly := by
  refine Polynomial.eq_of_infinite_eval_eq _ _ (Set.Infinite.mono (s := Set.Ioi 0) (fun t ht => ?_) (Set.Ioi_infinite 0))
  have e : ∀ M : Matrix n n ℝ, eval t M.charpoly = (t • (1 : Matrix n n ℝ) - M).det := fun M => by
    rw [Matrix.eval_charpoly]; congr 1; rw [Matrix.smul_one_eq_diagonal]; rfl
  show eval t A.charpoly = eval t B.charpoly
  rw [e, e, h t ht]

/-- diagonalised matrices with the same characteristic polynomial have the same products over their eigenvalues -/
theorem prod_of_charpoly {T S : Matrix n n ℝ} {d e : n → ℝ} (hT : IsUnit T.det) (hS : IsUnit S.det) (h : (T * diagonal d * T⁻¹).charpoly = (S * diagonal e * S⁻¹).charpoly) (f : ℝ → ℝ) :
    ∏ i, f (d i) = ∏ i, f (e i) := by
  have e1 : ∀ (T : Matrix n n ℝ) (d : n → ℝ), IsUnit T.det → (T * diagonal d * T⁻¹).charpoly = ∏ i, (X - C (d i)) := by
    intro T d hT
    have hu : IsUnit T := (Matrix.isUnit_iff_isUnit_det _).mpr hT
    obtain ⟨u, rfl⟩ := hu
    rw [Matrix.charpoly_units_conj, Matrix.charpoly_diagonal]
  rw [e1 T d hT, e1 S e hS] at h
  have h2 := congrArg Polynomial.roots h
  rw [Polynomial.roots_prod _ _ (Finset.prod_ne_zero_iff.mpr fun i _ => X_sub_C_ne_zero _), Polynomial.roots_prod _ _ (Finset.prod_ne_zero_iff.mpr fun i _ => X_sub_C_ne_zero _)] at h2
  simp only [roots_X_sub_C] at h2
  have h3 : ∀ d : n → ℝ, (Finset.univ.val.bind fun i => ({d i} : Multiset ℝ)) = Finset.univ.val.map d := fun d => by rw [Multiset.bind_singleton]
  rw [h3, h3] at h2
  have h4 := congrArg (fun m => (Multiset.map f m).prod) h2
  simp only [Multiset.map_map] at h4
  exact h4

end Verif.Lemmas.Diag
