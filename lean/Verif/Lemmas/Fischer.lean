/-
The loop hafnian of a matrix with an off-diagonal block of the form `d eᵀ`, as the Fischer product of two polynomials, and its positivity.
-/
import Verif.Lemmas.RecHaf
import Verif.Lemmas.PermL
import Mathlib.Algebra.MvPolynomial.PDeriv
import Mathlib.RingTheory.MvPolynomial.Basic
import Mathlib.Analysis.Complex.Basic

set_option linter.unusedSectionVars false
set_option linter.unusedSimpArgs false

namespace Verif.Lemmas.Fischer
open Verif.Lemmas MvPolynomial

variable {K : Type*} [Field K] {σ : Type*} [Fintype σ] [DecidableEq σ] {ι : Type*}

/-- product of the factorials of the exponents -/
def facs (s : σ →₀ ℕ) : ℕ := ∏ a, (s a).factorial

/-- the Fischer product `Σ_s s! p_s q_s` -/
noncomputable def fis (q : MvPolynomial σ K) : MvPolynomial σ K →ₗ[K] K := (basisMonomials σ K).constr K fun s => (facs s : K) * coeff s q

theorem fis_monomial (q : MvPolynomial σ K) (s : σ →₀ ℕ) (c : K) : fis q (monomial s c) = c * ((facs s : K) * coeff s q) := by
  have h := (basisMonomials σ K).constr_basis K (fun s => (facs s : K) * coeff s q) s
  rw [coe_basisMonomials] at h
  have e : monomial s c = c • monomial s (1 : K) := by rw [smul_monomial, smul_eq_mul, mul_one]
  unfold fis
  rw [e, map_smul, h, smul_eq_mul]

theorem fis_add (q q' p : MvPolynomial σ K) : fis (q + q') p = fis q p + fis q' p := by
  induction p using MvPolynomial.induction_on' with
  | monomial s c => rw [fis_monomial, fis_monomial, fis_monomial, coeff_add]; ring
  | add p p' h h' => rw [map_add, map_add, map_add, h, h']; ring

theorem fis_C_mul (c : K) (q p : MvPolynomial σ K) : fis (C c * q) p = c * fis q p := by
  induction p using MvPolynomial.induction_on' with
  | monomial s c' => rw [fis_monomial, fis_monomial, coeff_C_mul]; ring
  | add p p' h h' => rw [map_add, map_add, h, h']; ring

theorem fis_zero (p : MvPolynomial σ K) : fis 0 p = 0 := by
  have := fis_C_mul (0 : K) 0 p
  simpa using this

theorem fis_left_C (c : K) (q p : MvPolynomial σ K) : fis q (C c * p) = c * fis q p := by
  rw [← smul_eq_C_mul, map_smul, smul_eq_mul]

theorem facs_succ (s : σ →₀ ℕ) (a : σ) : facs (s + Finsupp.single a 1) = (s a + 1) * facs s := by
  unfold facs
  rw [← Finset.mul_prod_erase _ _ (Finset.mem_univ a), ← Finset.mul_prod_erase _ (fun b => (s b).factorial) (Finset.mem_univ a)]
  rw [Finsupp.add_apply, Finsupp.single_eq_same, Nat.factorial_succ, mul_assoc]
  congr 2
  refine Finset.prod_congr rfl fun b hb => ?_
  rw [Finsupp.add_apply, Finsupp.single_eq_of_ne (Finset.ne_of_mem_erase hb), add_zero]

/-- multiplication by a variable is adjoint to the derivative -/
theorem fis_adjoint (a : σ) (q p : MvPolynomial σ K) : fis q (X a * p) = fis (pderiv a q) p := by
  induction p using MvPolynomial.induction_on' with
  | monomial s c =>
    rw [mul_comm, X, monomial_mul, mul_one, fis_monomial, fis_monomial, facs_succ, coeff_pderiv]
    push_cast
    ring
  | add p p' h h' => rw [mul_add, map_add, map_add, h, h']

theorem fis_eSum (F : ι → List ι → MvPolynomial σ K) (l : List ι) (p : MvPolynomial σ K) : fis (eSum F l) p = eSum (fun y ys => fis (F y ys) p) l := by
  induction l generalizing F with
  | nil => rw [eSum_nil, eSum_nil, fis_zero]
  | cons x l ih => rw [eSum_cons, eSum_cons, fis_add, ih]

theorem fis_eSum_left (F : ι → List ι → MvPolynomial σ K) (l : List ι) (q : MvPolynomial σ K) : fis q (eSum F l) = eSum (fun y ys => fis q (F y ys)) l := by
  induction l generalizing F with
  | nil => rw [eSum_nil, eSum_nil, map_zero]
  | cons x l ih => rw [eSum_cons, eSum_cons, map_add, ih]

/-- the derivative of a loop hafnian with respect to its loop weights -/
theorem deriv_lh {R : Type*} [CommRing R] [Algebra K R] (δ : Derivation K R R) (D : ι → R) (A : ι → ι → R) (hA : ∀ i j, δ (A i j) = 0) (l : List ι) :
    δ (lh D A l) = eSum (fun y ys => δ (D y) * lh D A ys) l := by
  induction hn : l.length using Nat.strong_induction_on generalizing l with
  | _ n ih =>
    cases l with
    | nil => simp
    | cons x l =>
      simp only [List.length_cons] at hn
      have hE : ∀ (F : ι → List ι → R) (l : List ι), δ (eSum F l) = eSum (fun y ys => δ (F y ys)) l := by
        intro F l
        induction l generalizing F with
        | nil => simp
        | cons x l ih => rw [eSum_cons, eSum_cons, map_add, ih]
      rw [lh_cons, map_add, Derivation.leibniz, hE, ih l.length (by omega) l rfl, eSum_cons, smul_eq_mul, smul_eq_mul, ← eSum_mul_left]
      have e1 : eSum (fun y ys => δ (A x y * lh D A ys)) l = eSum (fun y ys => eSum (fun z zs => A x y * (δ (D z) * lh D A zs)) ys) l := by
        apply eSum_congr
        intro y ys hy
        rw [Derivation.leibniz, hA, smul_zero, add_zero, ih ys.length (by omega) ys rfl, smul_eq_mul, eSum_mul_left]
      have e2 : eSum (fun y ys => δ (D y) * lh D A (x :: ys)) l =
          eSum (fun y ys => D x * (δ (D y) * lh D A ys)) l + eSum (fun y ys => eSum (fun z zs => A x z * (δ (D y) * lh D A zs)) ys) l := by
        rw [← eSum_add]
        apply eSum_congr
        intro y ys _
        rw [lh_cons, mul_add, ← eSum_mul_left]
        congr 1
        · ring
        · congr 1
          funext z zs
          ring
      rw [e1, e2, eSum_swap (fun y z zs => A x y * (δ (D z) * lh D A zs))]
      ring

/-- loop weights that are affine in the variables -/
noncomputable def wt (D : ι → K) (d : ι → σ → K) (x : ι) : MvPolynomial σ K := C (D x) + ∑ a, C (d x a) * X a

theorem pderiv_wt (D : ι → K) (d : ι → σ → K) (x : ι) (a : σ) : pderiv a (wt D d x) = C (d x a) := by
  unfold wt
  rw [map_add, pderiv_C, zero_add, map_sum, Finset.sum_eq_single a]
  · rw [pderiv_C_mul, pderiv_X_self, mul_one]
  · intro b _ hb
    rw [pderiv_C_mul, pderiv_X_of_ne hb, mul_zero]
  · simp

theorem eSum_sum {R : Type*} [CommRing R] (F : σ → ι → List ι → R) (l : List ι) : ∑ a, eSum (F a) l = eSum (fun y ys => ∑ a, F a y ys) l := by
  induction l generalizing F with
  | nil => simp
  | cons x l ih => simp only [eSum_cons, Finset.sum_add_distrib, ih]

/-- the loop hafnian of two lists that are only coupled by `d eᵀ` -/
theorem lh_fischer (D : ι → K) (A : ι → ι → K) (d e : ι → σ → K) (L R : List ι) (h : ∀ x ∈ L, ∀ y ∈ R, A x y = ∑ a, d x a * e y a) :
    lh D A (L ++ R) = fis (lh (wt D e) (fun i j => C (A i j)) R) (lh (wt D d) (fun i j => C (A i j)) L) := by
  induction hn : L.length using Nat.strong_induction_on generalizing L R with
  | _ n ih =>
    cases L with
    | nil =>
      rw [List.nil_append, lh_nil, ← C_1, C_apply, fis_monomial, one_mul]
      have e0 : facs (0 : σ →₀ ℕ) = 1 := by simp [facs]
      rw [e0, Nat.cast_one, one_mul, ← constantCoeff_eq, lh_ringHom]
      refine lh_congr (fun i _ => ?_) fun i _ j _ => ?_
      · simp [wt]
      · simp
    | cons x L =>
      simp only [List.length_cons] at hn
      have hL : ∀ x ∈ L, ∀ y ∈ R, A x y = ∑ a, d x a * e y a := fun a ha => h a (List.mem_cons_of_mem _ ha)
      rw [List.cons_append, lh_cons, lh_cons, eSum_append, ih L.length (by omega) L R hL rfl, map_add, fis_eSum_left]
      have e1 : eSum (fun y ys => A x y * lh D A (ys ++ R)) L =
          eSum (fun y ys => fis (lh (wt D e) (fun i j => C (A i j)) R) (C (A x y) * lh (wt D d) (fun i j => C (A i j)) ys)) L := by
        apply eSum_congr'
        intro y ys hp
        have hl := hp.length_eq
        simp only [List.length_cons] at hl
        rw [fis_left_C, ih ys.length (by omega) ys R (fun a ha => hL a (hp.subset (List.mem_cons_of_mem _ ha))) rfl]
      have e2 : eSum (fun y ys => A x y * lh D A (L ++ ys)) R =
          ∑ a, d x a * fis (pderiv a (lh (wt D e) (fun i j => C (A i j)) R)) (lh (wt D d) (fun i j => C (A i j)) L) := by
        have : ∀ a, d x a * fis (pderiv a (lh (wt D e) (fun i j => C (A i j)) R)) (lh (wt D d) (fun i j => C (A i j)) L) =
            eSum (fun y ys => d x a * e y a * fis (lh (wt D e) (fun i j => C (A i j)) ys) (lh (wt D d) (fun i j => C (A i j)) L)) R := by
          intro a
          rw [deriv_lh _ _ _ (fun i j => pderiv_C), fis_eSum, ← eSum_mul_left]
          congr 1
          funext y ys
          rw [pderiv_wt, fis_C_mul]
          ring
        simp only [this]
        rw [eSum_sum]
        apply eSum_congr'
        intro y ys hp
        rw [ih L.length (by omega) L ys (fun a ha b hb => hL a ha b (hp.subset (List.mem_cons_of_mem _ hb))) rfl, ← Finset.sum_mul,
          h x List.mem_cons_self y (hp.subset List.mem_cons_self)]
      rw [e1, e2, wt, add_mul, map_add, fis_left_C, Finset.sum_mul, map_sum]
      have e3 : ∀ a, fis (lh (wt D e) (fun i j => C (A i j)) R) (C (d x a) * X a * lh (wt D d) (fun i j => C (A i j)) L) =
          d x a * fis (pderiv a (lh (wt D e) (fun i j => C (A i j)) R)) (lh (wt D d) (fun i j => C (A i j)) L) := by
        intro a
        rw [mul_assoc, fis_left_C, fis_adjoint]
      simp only [e3]
      ring

/-- positivity of the Fischer product -/
theorem fis_conj_nonneg (p : MvPolynomial σ ℂ) : ∃ r : ℝ, 0 ≤ r ∧ fis (map (starRingEnd ℂ) p) p = r := by
  refine ⟨∑ s ∈ p.support, (facs s : ℝ) * Complex.normSq (coeff s p), Finset.sum_nonneg fun s _ => mul_nonneg (Nat.cast_nonneg _) (Complex.normSq_nonneg _), ?_⟩
  refine (congrArg (fis (map (starRingEnd ℂ) p)) (as_sum p)).trans ?_
  rw [map_sum]
  push_cast
  refine Finset.sum_congr rfl fun s _ => ?_
  rw [fis_monomial, coeff_map, Complex.normSq_eq_conj_mul_self]
  ring

end Verif.Lemmas.Fischer
