/-
Bogoliubov matrices of symplectic matrices.
-/
import Verif.Lemmas.Heisenberg
import Mathlib.LinearAlgebra.SymplecticGroup
import Mathlib.LinearAlgebra.Matrix.PosDef
import Mathlib.Analysis.Matrix.PosDef
import Mathlib.Analysis.Complex.Basic

set_option linter.unusedSectionVars false
set_option linter.unusedSimpArgs false

namespace Verif.Lemmas.Heis
open Verif.Spec Verif.Lemmas Matrix
open scoped ComplexOrder

noncomputable section

variable {ι : Type} [Fintype ι] [DecidableEq ι]

/-- complex conjugate of a matrix -/
abbrev cj {m n : Type} (M : Matrix m n ℂ) : Matrix m n ℂ := M.map (starRingEnd ℂ)

theorem cj_mul {l m n : Type} [Fintype m] (A : Matrix l m ℂ) (B : Matrix m n ℂ) : cj (A * B) = cj A * cj B := Matrix.map_mul
theorem cj_cj {m n : Type} (A : Matrix m n ℂ) : cj (cj A) = A := by ext i j; simp
theorem cj_one : cj (1 : Matrix ι ι ℂ) = 1 := by ext i j; by_cases h : i = j <;> simp [h, Matrix.one_apply]
theorem cj_transpose {m n : Type} (A : Matrix m n ℂ) : cj Aᵀ = Aᴴ := rfl
theorem cj_conjTranspose {m n : Type} (A : Matrix m n ℂ) : cj Aᴴ = Aᵀ := by ext i j; simp
theorem transpose_cj {m n : Type} (A : Matrix m n ℂ) : (cj A)ᵀ = Aᴴ := rfl
theorem conjTranspose_cj {m n : Type} (A : Matrix m n ℂ) : (cj A)ᴴ = Aᵀ := by ext i j; simp

/-- quadratures to amplitudes -/
def Ui (ι : Type) [DecidableEq ι] : Matrix (ι ⊕ ι) (ι ⊕ ι) ℂ := fromBlocks 1 (-(Complex.I • 1)) 1 (Complex.I • 1)

theorem Ui_conj : Ui ι * (Ui ι)ᴴ = (2 : ℂ) • 1 := by
  simp only [Ui]
  rw [fromBlocks_conjTranspose, fromBlocks_multiply]
  ext p q
  rcases p with p | p <;> rcases q with q | q <;> simp [Matrix.one_apply, smul_smul] <;> split_ifs <;> norm_num

theorem Ui_unit : IsUnit (Ui ι) := by
  have hd : IsUnit (Ui ι * (Ui ι)ᴴ).det := by
    rw [Ui_conj, det_smul, det_one, mul_one]
    exact (isUnit_iff_ne_zero.mpr (by norm_num)).pow _
  rw [det_mul] at hd
  exact (isUnit_iff_isUnit_det _).mpr (isUnit_of_mul_isUnit_left hd)

theorem Ui_mul (S : Matrix (ι ⊕ ι) (ι ⊕ ι) ℝ) :
    Ui ι * S.map Complex.ofReal = fromBlocks (cj (bogE S)) (cj (bogF S)) (bogF S) (bogE S) * Ui ι := by
  have hS : S = fromBlocks S.toBlocks₁₁ S.toBlocks₁₂ S.toBlocks₂₁ S.toBlocks₂₂ := (fromBlocks_toBlocks S).symm
  rw [hS, fromBlocks_map, Ui, fromBlocks_multiply, fromBlocks_multiply]
  congr 1 <;> ext i j <;> apply Complex.ext <;>
    simp [bogE, bogF, toBlocks₁₁, toBlocks₁₂, toBlocks₂₁, toBlocks₂₂, Matrix.mul_apply, Matrix.one_apply, Matrix.smul_apply] <;> ring

theorem bog_mul (S T : Matrix (ι ⊕ ι) (ι ⊕ ι) ℝ) :
    bogE (S * T) = bogE S * bogE T + bogF S * cj (bogF T) ∧ bogF (S * T) = bogE S * bogF T + bogF S * cj (bogE T) := by
  have h : Ui ι * (S * T).map Complex.ofReal = (fromBlocks (cj (bogE S)) (cj (bogF S)) (bogF S) (bogE S) * fromBlocks (cj (bogE T)) (cj (bogF T)) (bogF T) (bogE T)) * Ui ι := by
    have : (S * T).map Complex.ofReal = S.map Complex.ofReal * T.map Complex.ofReal := Matrix.map_mul (f := Complex.ofRealHom)
    rw [this, ← Matrix.mul_assoc, Ui_mul, Matrix.mul_assoc, Ui_mul, Matrix.mul_assoc]
  rw [Ui_mul] at h
  have h2 := Ui_unit.mul_right_cancel h
  rw [fromBlocks_multiply, fromBlocks_inj] at h2
  obtain ⟨-, -, h3, h4⟩ := h2
  exact ⟨by rw [h4, add_comm], by rw [h3, add_comm]⟩

theorem bogE_one : bogE (1 : Matrix (ι ⊕ ι) (ι ⊕ ι) ℝ) = 1 := by
  ext i j
  by_cases h : i = j
  · subst h; simp [bogE]; rfl
  · simp [bogE, Matrix.one_apply, h]; rfl

theorem bogF_one : bogF (1 : Matrix (ι ⊕ ι) (ι ⊕ ι) ℝ) = 0 := by
  ext i j
  by_cases h : i = j
  · subst h; simp [bogF]; rfl
  · simp [bogF, Matrix.one_apply, h]; rfl

variable {S : Matrix (ι ⊕ ι) (ι ⊕ ι) ℝ}

/-- the inverse of a symplectic matrix -/
theorem symp_inv (hS : S ∈ symplecticGroup ι ℝ) : (-(J ι ℝ * Sᵀ * J ι ℝ)) * S = 1 ∧ S * (-(J ι ℝ * Sᵀ * J ι ℝ)) = 1 ∧
    -(J ι ℝ * Sᵀ * J ι ℝ) ∈ symplecticGroup ι ℝ := by
  have h2 : S * (-(J ι ℝ * Sᵀ * J ι ℝ)) = 1 := by
    have := SymplecticGroup.mem_iff.mp hS
    rw [Matrix.mul_neg, ← Matrix.mul_assoc, ← Matrix.mul_assoc, this, J_squared, neg_neg]
  have h1 : (-(J ι ℝ * Sᵀ * J ι ℝ)) * S = 1 := mul_eq_one_comm.mp h2
  refine ⟨h1, h2, ?_⟩
  have e : -(J ι ℝ * Sᵀ * J ι ℝ) = (((⟨S, hS⟩ : symplecticGroup ι ℝ)⁻¹ : symplecticGroup ι ℝ) : Matrix _ _ ℝ) := by
    have h3 : S * (((⟨S, hS⟩ : symplecticGroup ι ℝ)⁻¹ : symplecticGroup ι ℝ) : Matrix _ _ ℝ) = 1 := by
      have := mul_inv_cancel (⟨S, hS⟩ : symplecticGroup ι ℝ)
      exact congrArg Subtype.val this
    calc _ = -(J ι ℝ * Sᵀ * J ι ℝ) * (S * (((⟨S, hS⟩ : symplecticGroup ι ℝ)⁻¹ : symplecticGroup ι ℝ) : Matrix _ _ ℝ)) := by rw [h3, Matrix.mul_one]
      _ = _ := by rw [← Matrix.mul_assoc, h1, Matrix.one_mul]
  rw [e]
  exact Subtype.property _

theorem bog_inv : bogE (-(J ι ℝ * Sᵀ * J ι ℝ)) = (bogE S)ᴴ ∧ bogF (-(J ι ℝ * Sᵀ * J ι ℝ)) = -(bogF S)ᵀ := by
  have hS : S = fromBlocks S.toBlocks₁₁ S.toBlocks₁₂ S.toBlocks₂₁ S.toBlocks₂₂ := (fromBlocks_toBlocks S).symm
  have e : -(J ι ℝ * Sᵀ * J ι ℝ) = fromBlocks (S.toBlocks₂₂)ᵀ (-(S.toBlocks₁₂)ᵀ) (-(S.toBlocks₂₁)ᵀ) (S.toBlocks₁₁)ᵀ := by
    conv_lhs => rw [hS]
    rw [J, fromBlocks_transpose, fromBlocks_multiply, fromBlocks_multiply, fromBlocks_neg]
    simp
  rw [e]
  constructor
  · ext i j
    simp only [bogE, of_apply, fromBlocks_apply₁₁, fromBlocks_apply₁₂, fromBlocks_apply₂₁, fromBlocks_apply₂₂, conjTranspose_apply, transpose_apply, Matrix.neg_apply,
      toBlocks₁₁, toBlocks₁₂, toBlocks₂₁, toBlocks₂₂]
    apply Complex.ext <;> simp <;> ring
  · ext i j
    simp only [bogF, of_apply, fromBlocks_apply₁₁, fromBlocks_apply₁₂, fromBlocks_apply₂₁, fromBlocks_apply₂₂, conjTranspose_apply, transpose_apply, Matrix.neg_apply,
      toBlocks₁₁, toBlocks₁₂, toBlocks₂₁, toBlocks₂₂]
    apply Complex.ext <;> simp <;> ring

/-- the Bogoliubov relations of a symplectic matrix -/
theorem symp_bog (hS : S ∈ symplecticGroup ι ℝ) : Bog (bogE S) (bogF S) := by
  obtain ⟨h1, h2, -⟩ := symp_inv hS
  obtain ⟨iE, iF⟩ := bog_inv (S := S)
  have m1 := bog_mul (-(J ι ℝ * Sᵀ * J ι ℝ)) S
  have m2 := bog_mul S (-(J ι ℝ * Sᵀ * J ι ℝ))
  rw [h1, iE, iF, bogE_one, bogF_one] at m1
  rw [h2, iE, iF, bogE_one, bogF_one] at m2
  have en : ∀ M : Matrix ι ι ℂ, cj (-M) = -cj M := fun M => by ext i j; simp
  constructor
  · rw [m1.1, Matrix.neg_mul, sub_eq_add_neg]
  · have := m1.2
    rw [Matrix.neg_mul, ← sub_eq_add_neg] at this
    exact sub_eq_zero.mp this.symm
  · rw [m2.1, en, Matrix.mul_neg, sub_eq_add_neg]; rfl
  · have := m2.2
    rw [cj_conjTranspose, Matrix.mul_neg, neg_add_eq_sub] at this
    exact (sub_eq_zero.mp this.symm).symm

theorem bog_isUnit {E F : Matrix ι ι ℂ} (h : Bog E F) : IsUnit E := by
  have e : Eᴴ * E = 1 + (cj F)ᴴ * cj F := by
    rw [conjTranspose_cj, ← h.a]; abel
  have hp : (1 + (cj F)ᴴ * cj F).PosDef := Matrix.PosDef.one.add_posSemidef (posSemidef_conjTranspose_mul_self _)
  rw [← e] at hp
  have := hp.isUnit
  rw [isUnit_iff_isUnit_det, det_mul] at this
  exact (isUnit_iff_isUnit_det _).mpr (isUnit_of_mul_isUnit_right this)

theorem bogE_isUnit (hS : S ∈ symplecticGroup ι ℝ) : IsUnit (bogE S) := bog_isUnit (symp_bog hS)

/-- `(S Sᵀ + 1) S⁻ᵀ` and `(S Sᵀ - 1) S⁻ᵀ` in the amplitudes -/
theorem Ui_add (S : Matrix (ι ⊕ ι) (ι ⊕ ι) ℝ) :
    Ui ι * (S - J ι ℝ * S * J ι ℝ).map Complex.ofReal = (2 : ℂ) • (fromBlocks (cj (bogE S)) 0 0 (bogE S) * Ui ι) ∧
    Ui ι * (S + J ι ℝ * S * J ι ℝ).map Complex.ofReal = (2 : ℂ) • (fromBlocks 0 (cj (bogF S)) (bogF S) 0 * Ui ι) := by
  have hJE : bogE (J ι ℝ * S * J ι ℝ) = -bogE S ∧ bogF (J ι ℝ * S * J ι ℝ) = bogF S := by
    have hS : S = fromBlocks S.toBlocks₁₁ S.toBlocks₁₂ S.toBlocks₂₁ S.toBlocks₂₂ := (fromBlocks_toBlocks S).symm
    have e : J ι ℝ * S * J ι ℝ = fromBlocks (-S.toBlocks₂₂) (S.toBlocks₂₁) (S.toBlocks₁₂) (-S.toBlocks₁₁) := by
      conv_lhs => rw [hS]
      rw [J, fromBlocks_multiply, fromBlocks_multiply]
      simp
    rw [e]
    constructor <;> ext i j
    · simp only [bogE, of_apply, fromBlocks_apply₁₁, fromBlocks_apply₁₂, fromBlocks_apply₂₁, fromBlocks_apply₂₂, Matrix.neg_apply,
        toBlocks₁₁, toBlocks₁₂, toBlocks₂₁, toBlocks₂₂]
      apply Complex.ext <;> simp <;> ring
    · simp only [bogF, of_apply, fromBlocks_apply₁₁, fromBlocks_apply₁₂, fromBlocks_apply₂₁, fromBlocks_apply₂₂, Matrix.neg_apply,
        toBlocks₁₁, toBlocks₁₂, toBlocks₂₁, toBlocks₂₂]
      apply Complex.ext <;> simp <;> ring
  have h1 : (S - J ι ℝ * S * J ι ℝ).map Complex.ofReal = S.map Complex.ofReal - (J ι ℝ * S * J ι ℝ).map Complex.ofReal := by ext i j; simp
  have h2 : (S + J ι ℝ * S * J ι ℝ).map Complex.ofReal = S.map Complex.ofReal + (J ι ℝ * S * J ι ℝ).map Complex.ofReal := by ext i j; simp
  have en : ∀ M : Matrix ι ι ℂ, cj (-M) = -cj M := fun M => by ext i j; simp
  constructor
  · rw [h1, Matrix.mul_sub, Ui_mul, Ui_mul, hJE.1, hJE.2, ← Matrix.sub_mul, ← Matrix.smul_mul, en]
    congr 1
    rw [fromBlocks_smul]
    ext (i | i) (j | j) <;> simp <;> ring
  · rw [h2, Matrix.mul_add, Ui_mul, Ui_mul, hJE.1, hJE.2, ← Matrix.add_mul, ← Matrix.smul_mul, en]
    congr 1
    rw [fromBlocks_smul]
    ext (i | i) (j | j) <;> simp <;> ring

/-- the block of the matrix `A` of a pure state -/
theorem pure_A (hS : S ∈ symplecticGroup ι ℝ) (B C : Matrix ι ι ℂ)
    (h : fromBlocks 0 B C 0 * (Ui ι * ((S * Sᵀ + 1).map Complex.ofReal)) = Ui ι * ((S * Sᵀ - 1).map Complex.ofReal)) :
    B * bogE S = cj (bogF S) := by
  have hT : Sᵀ * (-(J ι ℝ * S * J ι ℝ)) = 1 := by
    have := SymplecticGroup.mem_iff'.mp hS
    rw [Matrix.mul_neg, ← Matrix.mul_assoc, ← Matrix.mul_assoc, this, J_squared, neg_neg]
  have m : ∀ A B : Matrix (ι ⊕ ι) (ι ⊕ ι) ℝ, (A * B).map Complex.ofReal = A.map Complex.ofReal * B.map Complex.ofReal := fun A B => Matrix.map_mul (f := Complex.ofRealHom)
  have e1 : (S * Sᵀ + 1) * (-(J ι ℝ * S * J ι ℝ)) = S - J ι ℝ * S * J ι ℝ := by
    rw [Matrix.add_mul, Matrix.mul_assoc, hT, Matrix.mul_one, Matrix.one_mul, sub_eq_add_neg]
  have e2 : (S * Sᵀ - 1) * (-(J ι ℝ * S * J ι ℝ)) = S + J ι ℝ * S * J ι ℝ := by
    rw [Matrix.sub_mul, Matrix.mul_assoc, hT, Matrix.mul_one, Matrix.one_mul, sub_neg_eq_add]
  have h2 := congrArg (fun M => M * (-(J ι ℝ * S * J ι ℝ)).map Complex.ofReal) h
  rw [Matrix.mul_assoc (fromBlocks 0 B C 0), Matrix.mul_assoc (Ui ι), Matrix.mul_assoc (Ui ι), ← m, ← m] at h2
  rw [e1, e2, (Ui_add S).1, (Ui_add S).2, Matrix.mul_smul, ← Matrix.mul_assoc] at h2
  have h3 := Ui_unit.mul_right_cancel (smul_right_injective _ (two_ne_zero (α := ℂ)) h2)
  rw [fromBlocks_multiply, fromBlocks_inj] at h3
  have := h3.2.1
  simpa using this

theorem det_Ui_ne : (Ui ι).det ≠ 0 := ((isUnit_iff_isUnit_det _).mp Ui_unit).ne_zero

/-- the determinant of the Husimi covariance matrix of a pure state -/
theorem pure_det (hS : S ∈ symplecticGroup ι ℝ) : ((1 / 2 : ℝ) • (S * Sᵀ + 1)).det = ‖(bogE S).det‖ ^ 2 := by
  have hT : Sᵀ * (-(J ι ℝ * S * J ι ℝ)) = 1 := by
    have := SymplecticGroup.mem_iff'.mp hS
    rw [Matrix.mul_neg, ← Matrix.mul_assoc, ← Matrix.mul_assoc, this, J_squared, neg_neg]
  have e1 : (S * Sᵀ + 1) * (-(J ι ℝ * S * J ι ℝ)) = S - J ι ℝ * S * J ι ℝ := by
    rw [Matrix.add_mul, Matrix.mul_assoc, hT, Matrix.mul_one, Matrix.one_mul, sub_eq_add_neg]
  have hSd : S.det = 1 := SymplecticGroup.det_eq_one hS
  have hd : (-(J ι ℝ * S * J ι ℝ)).det = 1 := by
    have := congrArg Matrix.det hT
    rw [det_mul, det_transpose, hSd, one_mul, det_one] at this
    exact this
  have h1 : (S * Sᵀ + 1).det = (S - J ι ℝ * S * J ι ℝ).det := by rw [← e1, det_mul, hd, mul_one]
  have h2 := congrArg Matrix.det (Ui_add S).1
  rw [det_mul, det_smul, det_mul, det_fromBlocks_zero₂₁] at h2
  have h3 : ((S - J ι ℝ * S * J ι ℝ).map Complex.ofReal).det = (((S - J ι ℝ * S * J ι ℝ).det : ℝ) : ℂ) := (RingHom.map_det Complex.ofRealHom _).symm
  have h4 : (cj (bogE S)).det = (starRingEnd ℂ) (bogE S).det := (RingHom.map_det (starRingEnd ℂ) _).symm
  rw [h3, h4, Complex.conj_mul'] at h2
  have h5 : (((S - J ι ℝ * S * J ι ℝ).det : ℝ) : ℂ) = 2 ^ Fintype.card (ι ⊕ ι) * (‖(bogE S).det‖ : ℂ) ^ 2 := by
    apply mul_left_cancel₀ (det_Ui_ne (ι := ι))
    rw [h2]; ring
  have h6 : (S - J ι ℝ * S * J ι ℝ).det = 2 ^ Fintype.card (ι ⊕ ι) * ‖(bogE S).det‖ ^ 2 := by exact_mod_cast h5
  rw [det_smul, h1, h6, ← mul_assoc, ← mul_pow]
  norm_num

end

end Verif.Lemmas.Heis
