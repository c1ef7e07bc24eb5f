/- The Wick functional: a linear functional on polynomials whose value on a monomial is a loop hafnian. -/
import Verif.Lemmas.Lhaf
import Mathlib.Algebra.MvPolynomial.PDeriv
import Mathlib.Data.Finsupp.Multiset
import Mathlib.LinearAlgebra.Matrix.Trace
import Mathlib.Data.Matrix.Mul
import Mathlib.Algebra.MvPolynomial.Eval
import Mathlib.RingTheory.MvPolynomial.Basic

set_option linter.unusedSectionVars false
set_option linter.unusedSimpArgs false

namespace Verif

open Finset MvPolynomial

variable {ι : Type*} [Fintype ι] [DecidableEq ι] {K : Type*} [CommRing K]

/-- Wick functional. -/
noncomputable def wick (D : ι → K) (A : ι → ι → K) : MvPolynomial ι K →ₗ[K] K :=
  (MvPolynomial.basisMonomials ι K).constr K fun s => lh D A (Finsupp.toMultiset s).toList

theorem wick_monomial (D : ι → K) (A : ι → ι → K) (s : ι →₀ ℕ) (c : K) :
    wick D A (monomial s c) = c * lh D A (Finsupp.toMultiset s).toList := by
  have : monomial s c = c • (MvPolynomial.basisMonomials ι K s) := by
    simp [MvPolynomial.coe_basisMonomials, smul_monomial]
  rw [this, map_smul, wick, Module.Basis.constr_basis, smul_eq_mul]

theorem wick_one (D : ι → K) (A : ι → ι → K) : wick D A 1 = 1 := by
  have : (1 : MvPolynomial ι K) = monomial 0 1 := rfl
  rw [this, wick_monomial]; simp

/-- product of variables of a list -/
theorem wick_list (D : ι → K) (A : ι → ι → K) (hA : ∀ i j, A i j = A j i) (l : List ι) :
    wick D A (l.map X).prod = lh D A l := by
  have : ((l.map X).prod : MvPolynomial ι K) = monomial (Multiset.toFinsupp (l : Multiset ι)) 1 := by
    induction l with
    | nil => simp
    | cons x xs ih =>
      rw [List.map_cons, List.prod_cons, ih, ← Multiset.cons_coe, ← Multiset.singleton_add,
        map_add, Multiset.toFinsupp_singleton, X, monomial_mul, mul_one]
  rw [this, wick_monomial, one_mul]
  apply lh_perm _ _ hA
  rw [← Multiset.coe_eq_coe, Multiset.coe_toList, Multiset.toFinsupp_toMultiset]

theorem lh_erase_sum (D : ι → K) (A : ι → ι → K) (hA : ∀ i j, A i j = A j i) (i : ι) (l : List ι) :
    lh D A (i :: l) = D i * lh D A l + ∑ j, (l.count j : K) * (A i j * lh D A (l.erase j)) := by
  rw [lh_cons, eSum_count]
  intro y ys ys' h
  rw [lh_perm D A hA h]

/-- Wick rule. -/
theorem wick_X_mul (D : ι → K) (A : ι → ι → K) (hA : ∀ i j, A i j = A j i) (i : ι) (p : MvPolynomial ι K) :
    wick D A (X i * p) = D i * wick D A p + ∑ j, A i j * wick D A (pderiv j p) := by
  induction p using MvPolynomial.induction_on' with
  | add p q hp hq =>
    rw [mul_add, map_add, hp, hq, map_add]
    simp only [map_add, mul_add, Finset.sum_add_distrib]
    ring
  | monomial s c =>
    rw [X, monomial_mul, wick_monomial, wick_monomial, one_mul]
    have h1 : lh D A (Finsupp.toMultiset (Finsupp.single i 1 + s)).toList
        = lh D A (i :: (Finsupp.toMultiset s).toList) := by
      apply lh_perm _ _ hA
      rw [← Multiset.coe_eq_coe, Multiset.coe_toList, ← Multiset.cons_coe, Multiset.coe_toList, map_add,
        Finsupp.toMultiset_single]
      simp
    rw [h1, lh_erase_sum D A hA, mul_add, Finset.mul_sum]
    congr 1
    · ring
    · refine Finset.sum_congr rfl fun j _ => ?_
      rw [pderiv_monomial, wick_monomial]
      have h2 : (List.count j (Finsupp.toMultiset s).toList) = s j := by
        rw [← Multiset.coe_count, Multiset.coe_toList, Finsupp.count_toMultiset]
      rw [h2]
      have h3 : lh D A ((Finsupp.toMultiset s).toList.erase j)
          = lh D A (Finsupp.toMultiset (s - Finsupp.single j 1)).toList := by
        apply lh_perm _ _ hA
        rw [← Multiset.coe_eq_coe, Multiset.coe_toList, ← Multiset.coe_erase, Multiset.coe_toList]
        ext a
        rw [Finsupp.count_toMultiset]
        by_cases ha : a = j
        · subst ha; simp [Finsupp.count_toMultiset]
        · rw [Multiset.count_erase_of_ne ha, Finsupp.count_toMultiset]
          simp [Finsupp.single_apply, Ne.symm ha]
      rw [h3]; ring

end Verif
