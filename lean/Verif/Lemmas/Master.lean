/- Recurrences for the Wick functional of powers of a quadratic form (the "hafnian master theorem"). -/
import Verif.Lemmas.Wick
import Mathlib.Algebra.Field.Basic
import Mathlib.Algebra.CharZero.Defs
import Mathlib.Algebra.BigOperators.Intervals
import Mathlib.Data.Nat.Factorial.Basic
import Mathlib.Data.Nat.Cast.Field
import Mathlib.Algebra.BigOperators.Field
import Mathlib.Tactic.FieldSimp

set_option linter.unusedSectionVars false
set_option linter.unusedSimpArgs false

namespace Verif

open Finset MvPolynomial Matrix

variable {ι : Type*} [Fintype ι] [DecidableEq ι] {K : Type*} [Field K] [CharZero K]

/-- `Q` is the quadratic form with (symmetric) Hessian `W`. -/
structure IsQuad (W : Matrix ι ι K) (Q : MvPolynomial ι K) : Prop where
  deriv : ∀ j, pderiv j Q = ∑ k, C (W j k) * X k
  euler : C 2 * Q = ∑ j, X j * ∑ k, C (W j k) * X k

variable (D : ι → K) (A W : Matrix ι ι K) (Q : MvPolynomial ι K)

/-- `E[Qⁿ]/n!` -/
noncomputable def cW (n : ℕ) : K := wick D A (Q ^ n) / n.factorial
/-- `E[x_a Qⁿ]/n!` -/
noncomputable def gW (n : ℕ) : ι → K := fun a => wick D A (X a * Q ^ n) / n.factorial
/-- `E[x_a x_b Qⁿ]/n!` -/
noncomputable def hW (n : ℕ) : Matrix ι ι K := Matrix.of fun a b => wick D A (X a * (X b * Q ^ n)) / n.factorial

variable {D A W Q}

theorem cW_zero : cW D A Q 0 = 1 := by
  have := wick_one D (fun i j => A i j)
  simp only [cW, pow_zero, Nat.factorial_zero, Nat.cast_one, div_one]
  exact this

theorem C_mul_wick (c : K) (p : MvPolynomial ι K) : wick D A (C c * p) = c * wick D A p := by
  rw [← smul_eq_C_mul, map_smul, smul_eq_mul]

theorem wick_deriv_pow (hQ : IsQuad W Q) (n : ℕ) (p : MvPolynomial ι K) (a : ι) :
    ∑ j, A a j * wick D A (p * pderiv j (Q ^ n)) = n * ∑ k, (A * W) a k * wick D A (X k * (p * Q ^ (n - 1))) := by
  have h1 : ∀ j, wick D A (p * pderiv j (Q ^ n)) = ∑ k, (n : K) * (W j k * wick D A (X k * (p * Q ^ (n - 1)))) := by
    intro j
    rw [Derivation.leibniz_pow, hQ.deriv]
    have : p * (n • Q ^ (n - 1) • ∑ k, C (W j k) * X k)
        = ∑ k, C ((n : K) * W j k) * (X k * (p * Q ^ (n - 1))) := by
      rw [nsmul_eq_mul, smul_eq_mul, Finset.mul_sum, Finset.mul_sum, Finset.mul_sum]
      refine Finset.sum_congr rfl fun k _ => ?_
      rw [map_mul, show (C (n : K) : MvPolynomial ι K) = (n : MvPolynomial ι K) from map_natCast _ _]
      ring
    rw [this, map_sum]
    refine Finset.sum_congr rfl fun k _ => ?_
    rw [C_mul_wick]; ring
  simp only [h1, Matrix.mul_apply, Finset.mul_sum, Finset.sum_mul]
  rw [Finset.sum_comm]
  refine Finset.sum_congr rfl fun k _ => Finset.sum_congr rfl fun j _ => ?_
  ring

theorem gW_eq (hA : ∀ i j, A i j = A j i) (hQ : IsQuad W Q) (n : ℕ) :
    gW D A Q n = cW D A Q n • D + (if n = 0 then 0 else (A * W) *ᵥ gW D A Q (n - 1)) := by
  funext a
  have h := wick_X_mul D A hA a (Q ^ n)
  have h2 := wick_deriv_pow (D := D) (A := A) hQ n 1 a
  simp only [one_mul] at h2
  rw [h2] at h
  simp only [gW, Pi.add_apply, Pi.smul_apply, smul_eq_mul, cW, h]
  cases n with
  | zero => simp [mul_comm]
  | succ n =>
    simp only [Nat.succ_ne_zero, if_false, Nat.add_sub_cancel, mulVec, dotProduct, gW]
    have hf : ((n + 1).factorial : K) = (n + 1) * n.factorial := by
      rw [Nat.factorial_succ]; push_cast; ring
    have hn : ((n : K) + 1) ≠ 0 := by exact_mod_cast Nat.succ_ne_zero n
    have hnf : (n.factorial : K) ≠ 0 := by exact_mod_cast n.factorial_ne_zero
    rw [hf, add_div]
    congr 1
    · ring
    · rw [Finset.mul_sum, Finset.sum_div]
      refine Finset.sum_congr rfl fun k _ => ?_
      push_cast
      field_simp

theorem hW_eq (hA : ∀ i j, A i j = A j i) (hQ : IsQuad W Q) (n : ℕ) :
    hW D A Q n = vecMulVec D (gW D A Q n) + cW D A Q n • A
      + (if n = 0 then 0 else (A * W) * hW D A Q (n - 1)) := by
  ext a b
  have h := wick_X_mul D A hA a (X b * Q ^ n)
  have h1 : ∀ j, pderiv j (X b * Q ^ n) = C (if j = b then 1 else 0) * Q ^ n + X b * pderiv j (Q ^ n) := by
    intro j
    rw [Derivation.leibniz, smul_eq_mul, smul_eq_mul, pderiv_X]
    by_cases hjb : j = b
    · subst hjb; simp; ring
    · simp [hjb, Pi.single_apply, Ne.symm hjb]
  have h3 : ∑ j, A a j * wick D A (pderiv j (X b * Q ^ n)) = A a b * wick D A (Q ^ n)
      + n * ∑ k, (A * W) a k * wick D A (X k * (X b * Q ^ (n - 1))) := by
    rw [← wick_deriv_pow (D := D) (A := A) hQ n (X b) a]
    simp only [h1, map_add, C_mul_wick, mul_add, Finset.sum_add_distrib]
    congr 1
    simp
  rw [h3] at h
  simp only [hW, Matrix.add_apply, Matrix.smul_apply, smul_eq_mul, cW, h, Matrix.of_apply, vecMulVec_apply, gW]
  cases n with
  | zero => simp; ring
  | succ n =>
    simp only [Nat.succ_ne_zero, if_false, Nat.add_sub_cancel, Matrix.mul_apply (M := A * W), hW, Matrix.of_apply]
    have hf : ((n + 1).factorial : K) = (n + 1) * n.factorial := by
      rw [Nat.factorial_succ]; push_cast; ring
    have hn : ((n : K) + 1) ≠ 0 := by exact_mod_cast Nat.succ_ne_zero n
    have hnf : (n.factorial : K) ≠ 0 := by exact_mod_cast n.factorial_ne_zero
    rw [hf, add_div, add_div, add_assoc]
    congr 1
    · ring
    · congr 1
      · ring
      · rw [Finset.mul_sum, Finset.sum_div]
        refine Finset.sum_congr rfl fun k _ => ?_
        push_cast
        field_simp

theorem cW_succ (hQ : IsQuad W Q) (n : ℕ) :
    2 * ((n : K) + 1) * cW D A Q (n + 1) = ∑ a, ∑ b, W a b * hW D A Q n a b := by
  have h : 2 * wick D A (Q ^ (n + 1)) = ∑ a, ∑ b, W a b * wick D A (X a * (X b * Q ^ n)) := by
    rw [← C_mul_wick, pow_succ', ← mul_assoc, hQ.euler, Finset.sum_mul, map_sum]
    refine Finset.sum_congr rfl fun a _ => ?_
    rw [Finset.mul_sum, Finset.sum_mul, map_sum]
    refine Finset.sum_congr rfl fun b _ => ?_
    rw [← C_mul_wick]; congr 1; ring
  have hf : ((n + 1).factorial : K) = (n + 1) * n.factorial := by
    rw [Nat.factorial_succ]; push_cast; ring
  have hn : ((n : K) + 1) ≠ 0 := by exact_mod_cast Nat.succ_ne_zero n
  have hnf : (n.factorial : K) ≠ 0 := by exact_mod_cast n.factorial_ne_zero
  simp only [cW, hW, Matrix.of_apply, hf]
  have : 2 * ((n:K) + 1) * (wick D A (Q ^ (n + 1)) / ((n + 1) * n.factorial))
      = (2 * wick D A (Q ^ (n + 1))) / n.factorial := by field_simp
  rw [this, h, Finset.sum_div]
  refine Finset.sum_congr rfl fun a _ => ?_
  rw [Finset.sum_div]
  refine Finset.sum_congr rfl fun b _ => ?_
  ring

theorem gW_sum (hA : ∀ i j, A i j = A j i) (hQ : IsQuad W Q) (n : ℕ) :
    gW D A Q n = ∑ j ∈ range (n + 1), cW D A Q (n - j) • ((A * W) ^ j *ᵥ D) := by
  induction n with
  | zero => rw [gW_eq hA hQ]; simp
  | succ n ih =>
    rw [gW_eq hA hQ, if_neg (Nat.succ_ne_zero n), Nat.add_sub_cancel, ih, Finset.sum_range_succ' _ (n + 1)]
    rw [add_comm]
    congr 1
    · rw [Matrix.mulVec_sum]
      refine Finset.sum_congr rfl fun j _ => ?_
      rw [Matrix.mulVec_smul, Matrix.mulVec_mulVec, ← pow_succ']
      congr 2; omega
    · simp

theorem hW_sum (hA : ∀ i j, A i j = A j i) (hQ : IsQuad W Q) (n : ℕ) :
    hW D A Q n = ∑ j ∈ range (n + 1), (A * W) ^ j * (vecMulVec D (gW D A Q (n - j)) + cW D A Q (n - j) • A) := by
  induction n with
  | zero => rw [hW_eq hA hQ]; simp
  | succ n ih =>
    rw [hW_eq hA hQ, if_neg (Nat.succ_ne_zero n), Nat.add_sub_cancel, ih, Finset.sum_range_succ' _ (n + 1)]
    rw [add_comm]
    congr 1
    · rw [Finset.mul_sum]
      refine Finset.sum_congr rfl fun j _ => ?_
      rw [← mul_assoc, ← pow_succ']
      have : n + 1 - (j + 1) = n - j := by omega
      rw [this]
    · simp

theorem sum_range_triangle {M : Type*} [AddCommMonoid M] (F : ℕ → M) (n : ℕ) :
    ∑ j ∈ range (n + 1), ∑ l ∈ range (n - j + 1), F (j + l) = ∑ s ∈ range (n + 1), (s + 1) • F s := by
  have h : ∀ j ∈ range (n + 1), ∑ l ∈ range (n - j + 1), F (j + l) = ∑ s ∈ range (n + 1), if j ≤ s then F s else 0 := by
    intro j hj
    have hj : j ≤ n := by simpa [Nat.lt_succ_iff] using hj
    rw [← Finset.sum_filter]
    have : (range (n + 1)).filter (fun s => j ≤ s) = Ico j (n + 1) := by
      ext s; simp; omega
    rw [this, Finset.sum_Ico_eq_sum_range]
    congr 2; omega
  rw [Finset.sum_congr rfl h, Finset.sum_comm]
  refine Finset.sum_congr rfl fun s hs => ?_
  have hs : s ≤ n := by simpa [Nat.lt_succ_iff] using hs
  rw [← Finset.sum_filter, Finset.sum_const]
  have : (range (n + 1)).filter (fun j => j ≤ s) = range (s + 1) := by
    ext j; simp; omega
  rw [this, card_range]

theorem transpose_pow_comm (hA : Aᵀ = A) (hW : Wᵀ = W) (l : ℕ) :
    ((A * W) ^ l)ᵀ * W = W * (A * W) ^ l := by
  induction l with
  | zero => simp
  | succ l ih =>
    have h1 : ((A * W) ^ (l + 1))ᵀ * W = ((A * W) ^ l)ᵀ * W * (A * W) := by
      rw [pow_succ', Matrix.transpose_mul, Matrix.transpose_mul, hA, hW]
      simp only [mul_assoc]
    rw [h1, ih, pow_succ, mul_assoc]

/-- The recurrence for `c`. -/
theorem cW_recurrence (hA : ∀ i j, A i j = A j i) (hWs : ∀ i j, W i j = W j i) (hQ : IsQuad W Q) (n : ℕ) :
    ((n : K) + 1) * cW D A Q (n + 1) = ∑ s ∈ range (n + 1), cW D A Q (n - s) *
      (((A * W) ^ (s + 1)).trace / 2 + (s + 1) * ((W *ᵥ D) ⬝ᵥ ((A * W) ^ s *ᵥ D)) / 2) := by
  have hAt : Aᵀ = A := by ext i j; exact hA j i
  have hWt : Wᵀ = W := by ext i j; exact hWs j i
  have h := cW_succ (D := D) (A := A) hQ n
  have htr : ∑ a, ∑ b, W a b * hW D A Q n a b = (W * hW D A Q n).trace := by
    simp only [Matrix.trace, Matrix.diag_apply, Matrix.mul_apply]
    have hsym : ∀ a b, hW D A Q n a b = hW D A Q n b a := by
      intro a b; simp only [hW, Matrix.of_apply]; congr 2; ring
    refine Finset.sum_congr rfl fun a _ => Finset.sum_congr rfl fun b _ => ?_
    rw [hsym]
  rw [htr, hW_sum hA hQ, Finset.mul_sum, Matrix.trace_sum] at h
  have hterm : ∀ j ∈ range (n + 1), (W * ((A * W) ^ j * (vecMulVec D (gW D A Q (n - j)) + cW D A Q (n - j) • A))).trace
      = (∑ l ∈ range (n - j + 1), cW D A Q (n - (j + l)) * ((W *ᵥ D) ⬝ᵥ ((A * W) ^ (j + l) *ᵥ D)))
        + cW D A Q (n - j) * ((A * W) ^ (j + 1)).trace := by
    intro j hj
    rw [mul_add, mul_add, Matrix.trace_add]
    congr 1
    · rw [mul_vecMulVec, mul_vecMulVec, trace_vecMulVec, gW_sum hA hQ, dotProduct_sum]
      refine Finset.sum_congr rfl fun l _ => ?_
      rw [dotProduct_smul, smul_eq_mul]
      have e1 : n - j - l = n - (j + l) := by omega
      rw [e1]
      congr 1
      -- (W B^j D) · (B^l D) = (W D) · (B^{j+l} D)
      rw [Matrix.mulVec_mulVec, ← transpose_pow_comm hAt hWt, ← Matrix.mulVec_mulVec,
        Matrix.mulVec_transpose, ← Matrix.dotProduct_mulVec, Matrix.mulVec_mulVec, ← pow_add]
    · rw [Matrix.mul_smul, Matrix.mul_smul, Matrix.trace_smul, smul_eq_mul, pow_succ, ← mul_assoc W,
        Matrix.trace_mul_comm, ← mul_assoc, Matrix.trace_mul_comm ((A * W) ^ j)]
  rw [Finset.sum_congr rfl hterm, Finset.sum_add_distrib,
    sum_range_triangle (fun s => cW D A Q (n - s) * ((W *ᵥ D) ⬝ᵥ ((A * W) ^ s *ᵥ D)))] at h
  have h2 : ((n : K) + 1) * cW D A Q (n + 1) = (2 * ((n : K) + 1) * cW D A Q (n + 1)) / 2 := by
    field_simp
  rw [h2, h, ← Finset.sum_add_distrib, Finset.sum_div]
  refine Finset.sum_congr rfl fun s _ => ?_
  rw [nsmul_eq_mul]; push_cast; ring

end Verif
