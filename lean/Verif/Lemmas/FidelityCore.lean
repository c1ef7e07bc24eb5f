/-
The matrix whose square root is taken by `fidelity`, for two arbitrary physical covariance matrices: it is diagonalisable.
`D` is the covariance matrix of the first state in Williamson form, `s` that of the second state, `C = √(D² - 1/4)`.
-/
import Verif.Lemmas.Diagonalise
import Mathlib.LinearAlgebra.Matrix.PosDef
import Mathlib.LinearAlgebra.Matrix.SchurComplement
import Mathlib.Analysis.Complex.Basic
import Mathlib.Analysis.Complex.Order
import Mathlib.Analysis.SpecialFunctions.Sqrt
import Mathlib.Tactic.NoncommRing

namespace Verif.Lemmas.Uhl
open Matrix Polynomial
open scoped ComplexOrder

section algebra
variable {n K : Type} [Fintype n] [DecidableEq n] [Field K] (O D C s g : Matrix n n K)

/-- the matrix `(D + s)⁻¹ (Ω/4 + s Ω D)` of the code, with `g = (D + s)⁻¹` -/
def bM : Matrix n n K := g * ((1 / 4 : K) • O + s * O * D)

/-- the covariance matrix of `√ρ σ √ρ` -/
def sM : Matrix n n K := D - C * g * C

variable {O D C s g} (hO : O * O = -1) (hOD : O * D = D * O) (hOC : O * C = C * O) (hDC : D * C = C * D) (hCC : C * C = D * D - (1 / 4 : K) • 1) (hg : g * (D + s) = 1)
include hOD hCC hg

theorem bM_eq : bM O D s g = O * D - g * C * C * O := by
  have e : (1 / 4 : K) • O + s * O * D = (D + s) * (O * D) - C * C * O := by
    rw [hCC, Matrix.sub_mul, Matrix.smul_mul, Matrix.one_mul, Matrix.add_mul, ← Matrix.mul_assoc D O D, ← hOD, ← Matrix.mul_assoc s O D]
    have : O * D * D = D * D * O := by rw [hOD, Matrix.mul_assoc, hOD, Matrix.mul_assoc]
    rw [this]
    abel
  rw [bM, e, Matrix.mul_sub, ← Matrix.mul_assoc, hg, Matrix.one_mul]
  simp only [Matrix.mul_assoc]

include hOC hDC

theorem bM_comm : O * C * bM O D s g = O * sM D C g * (O * C) := by
  rw [bM_eq hOD hCC hg, sM, Matrix.mul_sub, Matrix.mul_sub, Matrix.sub_mul]
  have e1 : O * C * (O * D) = O * D * (O * C) := by
    have a1 : ∀ X, O * (D * X) = D * (O * X) := fun X => by rw [← Matrix.mul_assoc, hOD, Matrix.mul_assoc]
    have a2 : ∀ X, O * (C * X) = C * (O * X) := fun X => by rw [← Matrix.mul_assoc, hOC, Matrix.mul_assoc]
    have a3 : ∀ X, D * (C * X) = C * (D * X) := fun X => by rw [← Matrix.mul_assoc, hDC, Matrix.mul_assoc]
    simp only [Matrix.mul_assoc, a1, a2, a3, hOD, hOC, hDC]
  have e2 : O * C * (g * C * C * O) = O * (C * g * C) * (O * C) := by
    simp only [Matrix.mul_assoc]
    rw [hOC]
  rw [e1, e2]

/-- on the kernel of `C` -/
theorem bM_ker (hO : O * O = -1) (k : n → K) (hk : C *ᵥ k = 0) : bM O D s g *ᵥ k = O *ᵥ (D *ᵥ k) ∧ (bM O D s g * bM O D s g) *ᵥ k = -((1 / 4 : K) • k) := by
  have h1 : ∀ k : n → K, C *ᵥ k = 0 → bM O D s g *ᵥ k = (O * D) *ᵥ k := by
    intro k hk
    rw [bM_eq hOD hCC hg, Matrix.mul_assoc (g * C), ← hOC, Matrix.sub_mulVec, ← Matrix.mulVec_mulVec k (g * C) (O * C), ← Matrix.mulVec_mulVec k O C, hk]
    simp
  refine ⟨by rw [h1 k hk, Matrix.mulVec_mulVec], ?_⟩
  have h2 : C *ᵥ ((O * D) *ᵥ k) = 0 := by
    rw [Matrix.mulVec_mulVec, ← Matrix.mul_assoc, ← hOC, Matrix.mul_assoc, ← hDC, ← Matrix.mul_assoc, ← Matrix.mulVec_mulVec, hk, Matrix.mulVec_zero]
  rw [← Matrix.mulVec_mulVec, h1 k hk, h1 _ h2, Matrix.mulVec_mulVec]
  have h3 : O * D * (O * D) = -(C * C + (1 / 4 : K) • 1) := by
    rw [hCC, sub_add_cancel, hOD, Matrix.mul_assoc, ← Matrix.mul_assoc O D O, hOD, Matrix.mul_assoc D O O, hO]
    simp
  rw [h3, Matrix.neg_mulVec, Matrix.add_mulVec, ← Matrix.mulVec_mulVec, hk, Matrix.mulVec_zero, zero_add, Matrix.smul_mulVec, Matrix.one_mulVec]

end algebra

section positive
variable {n : Type} [Fintype n] [DecidableEq n] {O D C s g K1 K2 : Matrix n n ℂ}

/-- the uncertainty relation of `√ρ σ √ρ`, as a sum of two positive matrices -/
theorem sM_decomp (h1 : K1ᴴ = K1) (h2 : K2ᴴ = K2) (h11 : K1 * K1 = D + (Complex.I / 2) • O) (h22 : K2 * K2 = D - (Complex.I / 2) • O) (h12 : K1 * K2 = C) (h21 : K2 * K1 = C)
    (hgh : gᴴ = g) (hCh : Cᴴ = C) (hg : g * (D + s) = 1) :
    sM D C g + (Complex.I / 2) • O = (K1 - K2 * (g * C))ᴴ * (K1 - K2 * (g * C)) + (g * C)ᴴ * (s + (Complex.I / 2) • O) * (g * C) := by
  have e1 : (K1 - K2 * (g * C))ᴴ = K1 - C * g * K2 := by
    rw [conjTranspose_sub, conjTranspose_mul, conjTranspose_mul, h1, h2, hgh, hCh]
  have e2 : (g * C)ᴴ = C * g := by rw [conjTranspose_mul, hgh, hCh]
  rw [e1, e2]
  have e3 : (K1 - C * g * K2) * (K1 - K2 * (g * C)) = K1 * K1 - K1 * K2 * (g * C) - C * g * (K2 * K1) + C * g * (K2 * K2) * (g * C) := by noncomm_ring
  rw [e3, h11, h22, h12, h21]
  have e4 : C * g * (D - (Complex.I / 2) • O) * (g * C) + C * g * (s + (Complex.I / 2) • O) * (g * C) = C * (g * (D + s)) * (g * C) := by
    rw [← Matrix.add_mul, ← Matrix.mul_add]
    have : D - (Complex.I / 2) • O + (s + (Complex.I / 2) • O) = D + s := by abel
    rw [this]; simp only [Matrix.mul_assoc]
  rw [add_assoc, e4, hg, sM]
  simp only [Matrix.mul_assoc, Matrix.mul_one, Matrix.one_mul]
  abel

theorem sM_physical (h1 : K1ᴴ = K1) (h2 : K2ᴴ = K2) (h11 : K1 * K1 = D + (Complex.I / 2) • O) (h22 : K2 * K2 = D - (Complex.I / 2) • O) (h12 : K1 * K2 = C) (h21 : K2 * K1 = C)
    (hgh : gᴴ = g) (hCh : Cᴴ = C) (hg : g * (D + s) = 1) (hs : (s + (Complex.I / 2) • O).PosSemidef) : (sM D C g + (Complex.I / 2) • O).PosSemidef := by
  rw [sM_decomp h1 h2 h11 h22 h12 h21 hgh hCh hg]
  exact (posSemidef_conjTranspose_mul_self _).add (hs.conjTranspose_mul_mul_same _)

/-- vectors that saturate the uncertainty relation of `√ρ σ √ρ` -/
theorem sM_zero (h1 : K1ᴴ = K1) (h2 : K2ᴴ = K2) (h11 : K1 * K1 = D + (Complex.I / 2) • O) (h22 : K2 * K2 = D - (Complex.I / 2) • O) (h12 : K1 * K2 = C) (h21 : K2 * K1 = C)
    (hgh : gᴴ = g) (hCh : Cᴴ = C) (hg : g * (D + s) = 1) (hs : (s + (Complex.I / 2) • O).PosSemidef) (x : n → ℂ) (hx : (sM D C g + (Complex.I / 2) • O) *ᵥ x = 0) :
    (D - (Complex.I / 2) • O) *ᵥ ((g * C) *ᵥ x) = C *ᵥ x := by
  have hp1 := posSemidef_conjTranspose_mul_self (K1 - K2 * (g * C))
  have hp2 := hs.conjTranspose_mul_mul_same (g * C)
  rw [sM_decomp h1 h2 h11 h22 h12 h21 hgh hCh hg] at hx
  have h0 : star x ⬝ᵥ ((K1 - K2 * (g * C))ᴴ * (K1 - K2 * (g * C))) *ᵥ x + star x ⬝ᵥ ((g * C)ᴴ * (s + (Complex.I / 2) • O) * (g * C)) *ᵥ x = 0 := by
    rw [← dotProduct_add, ← Matrix.add_mulVec, hx, dotProduct_zero]
  have h3 := (add_eq_zero_iff_of_nonneg (hp1.dotProduct_mulVec_nonneg x) (hp2.dotProduct_mulVec_nonneg x)).mp h0
  have h4 : (K1 - K2 * (g * C)) *ᵥ x = 0 := by
    have := h3.1
    rw [← Matrix.mulVec_mulVec, Matrix.dotProduct_mulVec, Matrix.vecMul_conjTranspose, star_star] at this
    exact dotProduct_star_self_eq_zero.mp this
  have h5 := congrArg (fun y => K2 *ᵥ y) h4
  simp only [Matrix.mulVec_zero] at h5
  rw [Matrix.sub_mulVec, Matrix.mulVec_sub, Matrix.mulVec_mulVec, h21, ← Matrix.mulVec_mulVec x K2, Matrix.mulVec_mulVec _ K2, h22, sub_eq_zero] at h5
  exact h5.symm

/-- an eigenvector of the matrix of the code, up to the kernel of `C` -/
theorem bM_eig (h1 : K1ᴴ = K1) (h2 : K2ᴴ = K2) (h11 : K1 * K1 = D + (Complex.I / 2) • O) (h22 : K2 * K2 = D - (Complex.I / 2) • O) (h12 : K1 * K2 = C) (h21 : K2 * K1 = C)
    (hgh : gᴴ = g) (hCh : Cᴴ = C) (hg : g * (D + s) = 1) (hs : (s + (Complex.I / 2) • O).PosSemidef)
    (hO : O * O = -1) (hOD : O * D = D * O) (hOC : O * C = C * O) (hDC : D * C = C * D) (hCC : C * C = D * D - (1 / 4 : ℂ) • 1)
    (z : n → ℂ) (hz : C *ᵥ (bM O D s g *ᵥ z - (Complex.I / 2) • z) = 0) : bM O D s g *ᵥ (bM O D s g *ᵥ z - (Complex.I / 2) • z) = -((Complex.I / 2) • (bM O D s g *ᵥ z - (Complex.I / 2) • z)) := by
  set k := bM O D s g *ᵥ z - (Complex.I / 2) • z with hk
  have hBz : bM O D s g *ᵥ z = (Complex.I / 2) • z + k := by rw [hk]; abel
  have hx : (sM D C g + (Complex.I / 2) • O) *ᵥ ((O * C) *ᵥ z) = 0 := by
    have e1 : (O * sM D C g) *ᵥ ((O * C) *ᵥ z) = (Complex.I / 2) • ((O * C) *ᵥ z) := by
      rw [Matrix.mulVec_mulVec, ← bM_comm hOD hOC hDC hCC hg, ← Matrix.mulVec_mulVec, hBz, Matrix.mulVec_add, Matrix.mulVec_smul, ← Matrix.mulVec_mulVec k, hz, Matrix.mulVec_zero, add_zero]
    have e2 := congrArg (fun y => O *ᵥ y) e1
    simp only [Matrix.mulVec_smul] at e2
    rw [Matrix.mulVec_mulVec, ← Matrix.mul_assoc, hO, Matrix.neg_mul, Matrix.one_mul, Matrix.neg_mulVec] at e2
    rw [Matrix.add_mulVec, Matrix.smul_mulVec, ← e2]
    simp
  have hy := sM_zero h1 h2 h11 h22 h12 h21 hgh hCh hg hs _ hx
  have hY : (g * C) *ᵥ ((O * C) *ᵥ z) = (O * D) *ᵥ z - (Complex.I / 2) • z - k := by
    have : bM O D s g *ᵥ z = (O * D) *ᵥ z - (g * C) *ᵥ ((O * C) *ᵥ z) := by
      rw [bM_eq hOD hCC hg, Matrix.sub_mulVec, Matrix.mulVec_mulVec, hOC, ← Matrix.mul_assoc]
    rw [hBz] at this
    rw [sub_sub, this]; abel
  rw [hY, Matrix.mulVec_sub] at hy
  have e3 : (D - (Complex.I / 2) • O) *ᵥ ((O * D) *ᵥ z - (Complex.I / 2) • z) = C *ᵥ ((O * C) *ᵥ z) := by
    have e4 : (O * D) *ᵥ z - (Complex.I / 2) • z = (O * D - (Complex.I / 2) • 1) *ᵥ z := by rw [Matrix.sub_mulVec, Matrix.smul_mulVec, Matrix.one_mulVec]
    rw [e4, Matrix.mulVec_mulVec, Matrix.mulVec_mulVec]
    congr 1
    rw [← Matrix.mul_assoc, ← hOC, Matrix.mul_assoc O C C, hCC, Matrix.sub_mul, Matrix.mul_sub, Matrix.mul_sub, Matrix.mul_sub, ← Matrix.mul_assoc D O D, ← hOD, Matrix.mul_assoc O D D,
      Matrix.smul_mul, ← Matrix.mul_assoc O O D, hO, Matrix.smul_mul]
    simp only [Matrix.mul_smul, Matrix.mul_one, Matrix.neg_mul, Matrix.one_mul, smul_neg, smul_smul]
    have : Complex.I / 2 * (Complex.I / 2) = -(1 / 4) := by
      have := Complex.I_mul_I
      linear_combination (1 / 4) * this
    rw [this, neg_smul]
    abel
  rw [e3] at hy
  have e5 : (D - (Complex.I / 2) • O) *ᵥ k = 0 := by
    have : C *ᵥ ((O * C) *ᵥ z) - (D - (Complex.I / 2) • O) *ᵥ k - C *ᵥ ((O * C) *ᵥ z) = 0 := by rw [hy, sub_self]
    rw [sub_sub_cancel_left, neg_eq_zero] at this
    exact this
  rw [Matrix.sub_mulVec, sub_eq_zero, Matrix.smul_mulVec] at e5
  rw [(bM_ker hOD hOC hDC hCC hg hO k hz).1, e5, Matrix.mulVec_smul, Matrix.mulVec_mulVec, hO, Matrix.neg_mulVec, Matrix.one_mulVec, smul_neg]

end positive

section polynomials
variable {n : Type} [Fintype n] [DecidableEq n]

theorem aeval_semiconj {X A B : Matrix n n ℝ} (h : X * A = B * X) (p : ℝ[X]) : X * aeval A p = aeval B p * X := by
  induction p using Polynomial.induction_on' with
  | add p q hp hq => rw [map_add, map_add, Matrix.mul_add, Matrix.add_mul, hp, hq]
  | monomial k a =>
    rw [aeval_monomial, aeval_monomial, Algebra.algebraMap_eq_smul_one, Matrix.smul_mul, Matrix.smul_mul, Matrix.one_mul, Matrix.one_mul, Matrix.mul_smul, Matrix.smul_mul]
    congr 1
    induction k with
    | zero => simp
    | succ k ih => rw [pow_succ, pow_succ, ← Matrix.mul_assoc, ih, Matrix.mul_assoc, h, Matrix.mul_assoc]

theorem aeval_diag (e : n → ℝ) (p : ℝ[X]) : aeval (diagonal e) p = diagonal fun i => eval (e i) p := by
  induction p using Polynomial.induction_on' with
  | add p q hp hq =>
    rw [map_add, hp, hq, diagonal_add]
    congr 1; funext i; rw [eval_add]
  | monomial k a =>
    rw [aeval_monomial, Algebra.algebraMap_eq_smul_one, Matrix.smul_mul, Matrix.one_mul, diagonal_pow]
    ext i j
    rw [Matrix.smul_apply, diagonal_apply, diagonal_apply]
    split_ifs with h
    · rw [eval_monomial]; rfl
    · simp

theorem aeval_conj_zero {A P : Matrix n n ℝ} {e : n → ℝ} (hP : IsUnit P.det) (hA : A = P * diagonal e * P⁻¹) (p : ℝ[X]) (hp : ∀ i, eval (e i) p = 0) : aeval A p = 0 := by
  have h := aeval_semiconj (X := P) (A := diagonal e) (B := A) (by rw [hA, Matrix.mul_assoc _ P⁻¹, nonsing_inv_mul _ hP, Matrix.mul_one]) p
  rw [aeval_diag, funext hp] at h
  have h0 : diagonal (fun _ : n => (0 : ℝ)) = 0 := diagonal_zero
  rw [h0, Matrix.mul_zero] at h
  rw [← Matrix.mul_one (aeval A p), ← mul_nonsing_inv _ hP, ← Matrix.mul_assoc, ← h, Matrix.zero_mul]

end polynomials

section real
variable {n : Type} [Fintype n] [DecidableEq n] {O D C s g : Matrix n n ℝ} {K1 K2 : Matrix n n ℂ}

/-- real matrices as complex matrices -/
abbrev cx (A : Matrix n n ℝ) : Matrix n n ℂ := Complex.ofRealHom.mapMatrix A

theorem cx_smul (a : ℝ) (A : Matrix n n ℝ) : cx (a • A) = (a : ℂ) • cx A := by ext i j; simp [cx]

theorem cx_bM : cx (bM O D s g) = bM (cx O) (cx D) (cx s) (cx g) := by
  simp only [bM, cx]
  rw [map_mul, map_add, map_mul, map_mul]
  have := cx_smul (1 / 4) O
  simp only [cx] at this
  rw [this]
  push_cast; rfl

theorem cx_mulVec (A : Matrix n n ℝ) (v : n → ℝ) : cx A *ᵥ (fun i => ((v i : ℝ) : ℂ)) = fun i => (((A *ᵥ v) i : ℝ) : ℂ) := by
  funext i
  simp [Matrix.mulVec, dotProduct, cx]

theorem bM_neg {K : Type} [Field K] (O D s g : Matrix n n K) : bM (-O) D s g = -bM O D s g := by
  simp only [bM, Matrix.mul_neg, Matrix.neg_mul, smul_neg, ← neg_add]

variable (h1 : K1ᴴ = K1) (h2 : K2ᴴ = K2) (h11 : K1 * K1 = cx D + (Complex.I / 2) • cx O) (h22 : K2 * K2 = cx D - (Complex.I / 2) • cx O) (h12 : K1 * K2 = cx C) (h21 : K2 * K1 = cx C)
  (hgt : gᵀ = g) (hCt : Cᵀ = C) (hst : sᵀ = s) (hOt : Oᵀ = -O) (hg : g * (D + s) = 1) (hs : (cx s + (Complex.I / 2) • cx O).PosSemidef)
  (hO : O * O = -1) (hOD : O * D = D * O) (hOC : O * C = C * O) (hDC : D * C = C * D) (hCC : C * C = D * D - (1 / 4 : ℝ) • 1)
include h1 h2 h11 h22 h12 h21 hgt hCt hst hOt hg hs hO hOD hOC hDC hCC

theorem bM_square_zero (v : n → ℝ) (hv : C *ᵥ ((bM O D s g * bM O D s g + (1 / 4 : ℝ) • 1) *ᵥ v) = 0) : (bM O D s g * bM O D s g + (1 / 4 : ℝ) • 1) *ᵥ v = 0 := by
  set u := (bM O D s g * bM O D s g + (1 / 4 : ℝ) • 1) *ᵥ v with hu
  have cmul : ∀ A B : Matrix n n ℝ, cx (A * B) = cx A * cx B := fun A B => map_mul _ A B
  have c1 : cx (1 : Matrix n n ℝ) = 1 := map_one _
  have cneg : ∀ A : Matrix n n ℝ, cx (-A) = -cx A := fun A => map_neg _ A
  have ctr : ∀ A : Matrix n n ℝ, (cx A)ᴴ = cx Aᵀ := fun A => by
    ext i j; simp [cx, conjTranspose_apply]
  have hOc : cx O * cx O = -1 := by rw [← cmul, hO, cneg, c1]
  have hODc : cx O * cx D = cx D * cx O := by rw [← cmul, hOD, cmul]
  have hOCc : cx O * cx C = cx C * cx O := by rw [← cmul, hOC, cmul]
  have hDCc : cx D * cx C = cx C * cx D := by rw [← cmul, hDC, cmul]
  have hCCc : cx C * cx C = cx D * cx D - (1 / 4 : ℂ) • 1 := by
    rw [← cmul, hCC, ← cmul]
    have : cx (D * D - (1 / 4 : ℝ) • 1) = cx (D * D) - cx ((1 / 4 : ℝ) • 1) := map_sub _ _ _
    rw [this, cx_smul, c1]
    push_cast; rfl
  have hgc : cx g * (cx D + cx s) = 1 := by
    have : cx D + cx s = cx (D + s) := (map_add _ _ _).symm
    rw [this, ← cmul, hg, c1]
  have hgh : (cx g)ᴴ = cx g := by rw [ctr, hgt]
  have hCh : (cx C)ᴴ = cx C := by rw [ctr, hCt]
  have hs' : (cx s + (Complex.I / 2) • -cx O).PosSemidef := by
    have := hs.transpose
    have e : (cx s + (Complex.I / 2) • cx O)ᵀ = cx s + (Complex.I / 2) • -cx O := by
      have e1 : (cx s)ᵀ = cx sᵀ := rfl
      have e2 : (cx O)ᵀ = cx Oᵀ := rfl
      rw [transpose_add, transpose_smul, e1, e2, hst, hOt, cneg]
    rwa [e] at this
  let vc : n → ℂ := fun i => (v i : ℂ)
  let uc : n → ℂ := fun i => (u i : ℂ)
  have huc : uc = cx (bM O D s g) *ᵥ (cx (bM O D s g) *ᵥ vc) + (1 / 4 : ℂ) • vc := by
    rw [cx_mulVec, cx_mulVec]
    funext i
    have : u i = (bM O D s g *ᵥ bM O D s g *ᵥ v) i + 1 / 4 * v i := by
      rw [hu, Matrix.add_mulVec, Matrix.smul_mulVec, Matrix.one_mulVec, Matrix.mulVec_mulVec]; rfl
    simp only [uc, this, vc, Pi.add_apply, Pi.smul_apply, smul_eq_mul]
    push_cast; rfl
  have hCu : cx C *ᵥ uc = 0 := by
    have : cx C *ᵥ uc = fun i => (((C *ᵥ u) i : ℝ) : ℂ) := cx_mulVec C u
    rw [this, hv]; funext i; simp
  rw [cx_bM] at huc
  have hI : Complex.I / 2 * (Complex.I / 2) = -(1 / 4) := by linear_combination (1 / 4) * Complex.I_mul_I
  have k1 : bM (cx O) (cx D) (cx s) (cx g) *ᵥ (bM (cx O) (cx D) (cx s) (cx g) *ᵥ vc + (Complex.I / 2) • vc) - (Complex.I / 2) • (bM (cx O) (cx D) (cx s) (cx g) *ᵥ vc + (Complex.I / 2) • vc) = uc := by
    rw [huc, Matrix.mulVec_add, Matrix.mulVec_smul, smul_add, smul_smul, hI, neg_smul]; abel
  have r1 := bM_eig h1 h2 h11 h22 h12 h21 hgh hCh hgc hs hOc hODc hOCc hDCc hCCc _ (by rw [k1]; exact hCu)
  rw [k1] at r1
  have k2 : bM (-cx O) (cx D) (cx s) (cx g) *ᵥ (bM (-cx O) (cx D) (cx s) (cx g) *ᵥ vc + (Complex.I / 2) • vc) - (Complex.I / 2) • (bM (-cx O) (cx D) (cx s) (cx g) *ᵥ vc + (Complex.I / 2) • vc) = uc := by
    rw [huc, bM_neg, Matrix.mulVec_add, Matrix.mulVec_smul, smul_add, smul_smul, hI, neg_smul]
    simp only [Matrix.neg_mulVec, Matrix.mulVec_neg]
    abel
  have r2 := bM_eig (O := -cx O) h2 h1 (by rw [h22, smul_neg, sub_eq_add_neg]) (by rw [h11, smul_neg, sub_neg_eq_add]) h21 h12 hgh hCh hgc hs' (by rw [neg_mul_neg, hOc]) (by rw [Matrix.neg_mul, hODc, Matrix.mul_neg])
    (by rw [Matrix.neg_mul, hOCc, Matrix.mul_neg]) hDCc hCCc _ (by rw [k2]; exact hCu)
  rw [k2, bM_neg, Matrix.neg_mulVec, r1, neg_neg] at r2
  have r3 : uc = 0 := by
    funext i
    have := congrFun r2 i
    simp only [Pi.smul_apply, Pi.neg_apply, smul_eq_mul] at this
    have h3 : Complex.I * uc i = 0 := by linear_combination this
    exact (mul_eq_zero.mp h3).resolve_left Complex.I_ne_zero
  funext i
  have := congrFun r3 i
  exact Complex.ofReal_eq_zero.mp this

/-- the square of the matrix of the code is diagonalisable, with the eigenvalues of the square of `Ω` times the covariance matrix of `√ρ σ √ρ` -/
theorem bM_diag {P : Matrix n n ℝ} {e : n → ℝ} (hP : IsUnit P.det) (he : O * sM D C g * (O * sM D C g) = P * diagonal e * P⁻¹) (hL : ∀ t : ℝ, IsUnit (t • (1 : Matrix n n ℝ) - O * D).det) :
    ∃ (T : Matrix n n ℝ) (d : n → ℝ), IsUnit T.det ∧ (∀ i, d i = -(1 / 4) ∨ ∃ j, d i = e j) ∧ bM O D s g * bM O D s g = T * diagonal d * T⁻¹ ∧ (∀ f : ℝ → ℝ, ∏ i, f (d i) = ∏ i, f (e i)) ∧
      (bM O D s g).det = (O * sM D C g).det := by
  classical
  have hX := bM_comm hOD hOC hDC hCC hg
  set B := bM O D s g with hB
  set B' := O * sM D C g with hB'
  have hX2 : O * C * (B * B) = B' * B' * (O * C) := by rw [← Matrix.mul_assoc, hX, Matrix.mul_assoc, hX, ← Matrix.mul_assoc]
  let Λ : Finset ℝ := insert (-(1 / 4)) (Finset.univ.image e)
  have hp : ∏ l ∈ Λ, (X - Polynomial.C l) = (X - Polynomial.C (-(1 / 4))) * ∏ l ∈ Λ.erase (-(1 / 4)), (X - Polynomial.C l) :=
    (Finset.mul_prod_erase Λ (fun l => X - Polynomial.C l) (Finset.mem_insert_self _ _)).symm
  have f0 : aeval (B' * B') (∏ l ∈ Λ, (X - Polynomial.C l)) = 0 := by
    refine aeval_conj_zero hP he _ fun i => ?_
    rw [eval_prod]
    exact Finset.prod_eq_zero (Finset.mem_insert_of_mem (Finset.mem_image_of_mem e (Finset.mem_univ i))) (by simp)
  have f1 : C * aeval (B * B) (∏ l ∈ Λ, (X - Polynomial.C l)) = 0 := by
    have := aeval_semiconj hX2 (∏ l ∈ Λ, (X - Polynomial.C l))
    rw [f0, Matrix.zero_mul] at this
    have h3 := congrArg (fun Z => -(O * Z)) this
    simp only [Matrix.mul_zero, neg_zero] at h3
    rw [← h3, ← Matrix.mul_assoc, ← Matrix.mul_assoc, hO]
    simp
  have f2 : aeval (B * B) (∏ l ∈ Λ, (X - Polynomial.C l)) = (B * B + (1 / 4 : ℝ) • 1) * aeval (B * B) (∏ l ∈ Λ.erase (-(1 / 4)), (X - Polynomial.C l)) := by
    rw [hp, map_mul]
    congr 1
    rw [map_sub, aeval_X, aeval_C, Algebra.algebraMap_eq_smul_one, neg_smul, sub_neg_eq_add]
  have f3 : aeval (B * B) (∏ l ∈ Λ, (X - Polynomial.C l)) = 0 := by
    refine Matrix.ext_of_mulVec_single fun i => ?_
    rw [Matrix.zero_mulVec, f2, ← Matrix.mulVec_mulVec]
    refine bM_square_zero h1 h2 h11 h22 h12 h21 hgt hCt hst hOt hg hs hO hOD hOC hDC hCC _ ?_
    rw [Matrix.mulVec_mulVec _ (B * B + _), ← f2, Matrix.mulVec_mulVec, f1, Matrix.zero_mulVec]
  obtain ⟨T, d, hT, hd, hTd⟩ := Diag.exists_diagonal (B * B) Λ f3 ⟨_, Finset.mem_insert_self _ _⟩
  have hdet : ∀ t : ℝ, (t • (1 : Matrix n n ℝ) - B).det = (t • (1 : Matrix n n ℝ) - B').det := by
    intro t
    have hu := hL t
    set L := t • (1 : Matrix n n ℝ) - O * D with hLd
    have hXL : O * C * L = L * (O * C) := by
      have a1 : ∀ X, O * (D * X) = D * (O * X) := fun X => by rw [← Matrix.mul_assoc, hOD, Matrix.mul_assoc]
      have a2 : ∀ X, O * (C * X) = C * (O * X) := fun X => by rw [← Matrix.mul_assoc, hOC, Matrix.mul_assoc]
      have a3 : ∀ X, D * (C * X) = C * (D * X) := fun X => by rw [← Matrix.mul_assoc, hDC, Matrix.mul_assoc]
      rw [hLd, Matrix.mul_sub, Matrix.sub_mul, Matrix.mul_smul, Matrix.smul_mul, Matrix.mul_one, Matrix.one_mul]
      simp only [Matrix.mul_assoc, a1, a2, a3, hOD, hOC, hDC]
    have e1 : t • (1 : Matrix n n ℝ) - B = (1 + g * C * (O * C * L⁻¹)) * L := by
      rw [Matrix.add_mul, Matrix.one_mul, Matrix.mul_assoc (g * C), Matrix.mul_assoc (O * C), nonsing_inv_mul _ hu, Matrix.mul_one, hB, bM_eq hOD hCC hg, hLd, hOC]
      simp only [Matrix.mul_assoc]
      abel
    have e2 : t • (1 : Matrix n n ℝ) - B' = L * (1 + O * C * L⁻¹ * (g * C)) := by
      have : L * (O * C * L⁻¹) = O * C := by rw [← Matrix.mul_assoc, ← hXL, Matrix.mul_assoc, mul_nonsing_inv _ hu, Matrix.mul_one]
      rw [Matrix.mul_add, Matrix.mul_one, ← Matrix.mul_assoc, this, hB', sM, hLd, Matrix.mul_sub]
      simp only [Matrix.mul_assoc]
      abel
    rw [e1, e2, det_mul, det_mul, det_one_add_mul_comm, mul_comm]
  have hchar : (B * B).charpoly = (B' * B').charpoly := by
    refine Diag.charpoly_of_det _ _ fun t ht => ?_
    have e1 : ∀ A : Matrix n n ℝ, t • (1 : Matrix n n ℝ) - A * A = -((Real.sqrt t • (1 : Matrix n n ℝ) - A) * ((-Real.sqrt t) • (1 : Matrix n n ℝ) - A)) := by
      intro A
      have h2 : (Real.sqrt t * Real.sqrt t) • (1 : Matrix n n ℝ) = t • 1 := by rw [Real.mul_self_sqrt ht.le]
      rw [← h2]
      simp only [Matrix.sub_mul, Matrix.mul_sub, Matrix.smul_mul, Matrix.mul_smul, Matrix.one_mul, Matrix.mul_one, Matrix.mul_neg, Matrix.neg_mul, neg_smul, smul_neg, smul_sub, smul_smul]
      abel
    rw [e1, e1, det_neg, det_neg, det_mul, det_mul, hdet, hdet]
  refine ⟨T, d, hT, fun i => ?_, hTd, fun f => Diag.prod_of_charpoly hT hP (by rw [← hTd, ← he]; exact hchar) f, ?_⟩
  · rcases Finset.mem_insert.mp (hd i) with h | h
    · exact .inl h
    · obtain ⟨j, -, hj⟩ := Finset.mem_image.mp h
      exact .inr ⟨j, hj.symm⟩
  · have := hdet 0
    rw [zero_smul, zero_sub, zero_sub, det_neg, det_neg] at this
    exact mul_left_cancel₀ (pow_ne_zero _ (by norm_num)) this

end real

end Verif.Lemmas.Uhl
