/-
The Choi state of a Gaussian unitary: a pure state of twice as many modes whose amplitudes are those of the unitary.
-/
import Verif.Lemmas.PureAmp
import Verif.Props.Iwasawa

set_option linter.unusedSectionVars false
set_option linter.unusedSimpArgs false

namespace Verif.Lemmas.Heis
open Verif.Spec Verif.Lemmas Matrix Verif.Props Verif.Lemmas.Symp

noncomputable section

/-! #### symplectic matrices of the Choi state -/

section blocks
variable {ι κ : Type} [Fintype ι] [DecidableEq ι] [Fintype κ] [DecidableEq κ]

theorem cj_blocks (A B C D : Matrix ι ι ℂ) : cj (fromBlocks A B C D) = fromBlocks (cj A) (cj B) (cj C) (cj D) := fromBlocks_map _ _ _ _ _
theorem cj_zero : cj (0 : Matrix ι ι ℂ) = 0 := by ext i j; simp

/-- `S` on the first half of the modes -/
def sOne (S : Matrix (ι ⊕ ι) (ι ⊕ ι) ℝ) : Matrix ((ι ⊕ ι) ⊕ (ι ⊕ ι)) ((ι ⊕ ι) ⊕ (ι ⊕ ι)) ℝ :=
  fromBlocks (fromBlocks S.toBlocks₁₁ 0 0 1) (fromBlocks S.toBlocks₁₂ 0 0 0) (fromBlocks S.toBlocks₂₁ 0 0 0) (fromBlocks S.toBlocks₂₂ 0 0 1)

/-- two-mode squeezing of the two halves -/
def sTms (ι : Type) [DecidableEq ι] (r : ℝ) : Matrix ((ι ⊕ ι) ⊕ (ι ⊕ ι)) ((ι ⊕ ι) ⊕ (ι ⊕ ι)) ℝ :=
  fromBlocks (fromBlocks (Real.cosh r • 1) (Real.sinh r • 1) (Real.sinh r • 1) (Real.cosh r • 1)) 0 0
    (fromBlocks (Real.cosh r • 1) (-(Real.sinh r • 1)) (-(Real.sinh r • 1)) (Real.cosh r • 1))

theorem sOne_symp {S : Matrix (ι ⊕ ι) (ι ⊕ ι) ℝ} (hS : S ∈ symplecticGroup ι ℝ) : sOne S ∈ symplecticGroup (ι ⊕ ι) ℝ := by
  have hS' : S = fromBlocks S.toBlocks₁₁ S.toBlocks₁₂ S.toBlocks₂₁ S.toBlocks₂₂ := (fromBlocks_toBlocks S).symm
  rw [hS', symp_block_iff] at hS
  obtain ⟨h1, h2, h3⟩ := hS
  unfold sOne
  rw [symp_block_iff]
  refine ⟨?_, ?_, ?_⟩
  · rw [fromBlocks_transpose, fromBlocks_transpose, fromBlocks_multiply, fromBlocks_multiply]; simp [h1]
  · rw [fromBlocks_transpose, fromBlocks_transpose, fromBlocks_multiply, fromBlocks_multiply, ← fromBlocks_one]
    have e : ∀ A B C D : Matrix ι ι ℝ, fromBlocks A 0 B C - fromBlocks D 0 0 0 = fromBlocks (A - D) 0 B C := fun A B C D => by
      ext (i | i) (j | j) <;> simp
    simp only [Matrix.mul_zero, Matrix.zero_mul, Matrix.mul_one, add_zero, zero_add, transpose_zero, transpose_one]
    rw [e, h2]
  · rw [fromBlocks_transpose, fromBlocks_transpose, fromBlocks_multiply, fromBlocks_multiply]; simp [h3]

theorem sTms_symp (r : ℝ) : sTms ι r ∈ symplecticGroup (ι ⊕ ι) ℝ := by
  apply symp_diag
  rw [fromBlocks_transpose, fromBlocks_multiply, ← fromBlocks_one]
  have h := Real.cosh_sq r
  have e : ∀ a b : ℝ, (a • (1 : Matrix ι ι ℝ)) * (b • 1) = (a * b) • 1 := fun a b => by rw [Matrix.smul_mul, Matrix.one_mul, smul_smul]
  simp only [transpose_neg, transpose_smul, transpose_one, Matrix.mul_neg, e, ← sub_eq_add_neg, ← sub_smul, ← neg_smul, ← add_smul]
  congr 1
  · rw [show Real.cosh r * Real.cosh r + Real.sinh r * -Real.sinh r = 1 by nlinarith, one_smul]
  · rw [show Real.cosh r * -Real.sinh r + Real.sinh r * Real.cosh r = 0 by ring, zero_smul]
  · rw [show Real.sinh r * Real.cosh r + Real.cosh r * -Real.sinh r = 0 by ring, zero_smul]
  · rw [show Real.sinh r * -Real.sinh r + Real.cosh r * Real.cosh r = 1 by nlinarith, one_smul]

theorem symp_reindex (e : κ ≃ ι) {S : Matrix (κ ⊕ κ) (κ ⊕ κ) ℝ} (hS : S ∈ symplecticGroup κ ℝ) :
    S.submatrix (Sum.map e.symm e.symm) (Sum.map e.symm e.symm) ∈ symplecticGroup ι ℝ := by
  have h := SymplecticGroup.mem_iff.mp hS
  rw [SymplecticGroup.mem_iff]
  have hJ : J ι ℝ = (J κ ℝ).submatrix (Equiv.sumCongr e.symm e.symm) (Equiv.sumCongr e.symm e.symm) := by
    ext (i | i) (j | j) <;> simp [J, Matrix.one_apply]
  have hS' : S.submatrix (Sum.map e.symm e.symm) (Sum.map e.symm e.symm) = S.submatrix (Equiv.sumCongr e.symm e.symm) (Equiv.sumCongr e.symm e.symm) := rfl
  rw [hS', hJ, submatrix_mul_equiv, transpose_submatrix, submatrix_mul_equiv, h]

theorem bog_sOne (S : Matrix (ι ⊕ ι) (ι ⊕ ι) ℝ) : bogE (sOne S) = fromBlocks (bogE S) 0 0 1 ∧ bogF (sOne S) = fromBlocks (bogF S) 0 0 0 := by
  constructor
  · ext (i | i) (j | j)
    · rfl
    · simp [bogE, sOne]; rfl
    · simp [bogE, sOne]; rfl
    · by_cases h : i = j
      · subst h; simp [bogE, sOne]; rfl
      · simp [bogE, sOne, Matrix.one_apply, h]; rfl
  · ext (i | i) (j | j)
    · rfl
    · simp [bogF, sOne]; rfl
    · simp [bogF, sOne]; rfl
    · simp [bogF, sOne]; rfl

theorem bog_sTms (r : ℝ) : bogE (sTms ι r) = ((Real.cosh r : ℝ) : ℂ) • 1 ∧
    bogF (sTms ι r) = fromBlocks 0 (((Real.sinh r : ℝ) : ℂ) • 1) (((Real.sinh r : ℝ) : ℂ) • 1) 0 := by
  constructor
  · rw [← fromBlocks_one, fromBlocks_smul]
    ext (i | i) (j | j) <;> apply Complex.ext <;> by_cases h : i = j <;> simp only [bogE, sTms, of_apply, fromBlocks_apply₁₁, fromBlocks_apply₁₂, fromBlocks_apply₂₁, fromBlocks_apply₂₂,
      Matrix.smul_apply, Matrix.zero_apply, Matrix.neg_apply, Matrix.one_apply, h, if_true, if_false, smul_eq_mul, mul_one, mul_zero, Complex.ofReal_re, Complex.ofReal_im, smul_zero,
      Complex.zero_re, Complex.zero_im] <;> ring
  · ext (i | i) (j | j) <;> apply Complex.ext <;> by_cases h : i = j <;> simp only [bogF, sTms, of_apply, fromBlocks_apply₁₁, fromBlocks_apply₁₂, fromBlocks_apply₂₁, fromBlocks_apply₂₂,
      Matrix.smul_apply, Matrix.zero_apply, Matrix.neg_apply, Matrix.one_apply, h, if_true, if_false, smul_eq_mul, mul_one, mul_zero, Complex.ofReal_re, Complex.ofReal_im, smul_zero,
      Complex.zero_re, Complex.zero_im] <;> ring

theorem bog_choi (S : Matrix (ι ⊕ ι) (ι ⊕ ι) ℝ) (r : ℝ) :
    bogE (sOne S * sTms ι r) = fromBlocks (((Real.cosh r : ℝ) : ℂ) • bogE S) (((Real.sinh r : ℝ) : ℂ) • bogF S) 0 (((Real.cosh r : ℝ) : ℂ) • 1) ∧
    bogF (sOne S * sTms ι r) = fromBlocks (((Real.cosh r : ℝ) : ℂ) • bogF S) (((Real.sinh r : ℝ) : ℂ) • bogE S) (((Real.sinh r : ℝ) : ℂ) • 1) 0 := by
  obtain ⟨h1, h2⟩ := bog_mul (sOne S) (sTms ι r)
  obtain ⟨e1, f1⟩ := bog_sOne S
  obtain ⟨e2, f2⟩ := bog_sTms (ι := ι) r
  rw [e1, f1, e2, f2] at h1 h2
  have ec : ∀ a : ℝ, cj ((a : ℂ) • (1 : Matrix ι ι ℂ)) = (a : ℂ) • 1 := fun a => by
    ext i j; by_cases h : i = j <;> simp [h, Matrix.one_apply]
  have ec2 : ∀ a : ℝ, cj ((a : ℂ) • (1 : Matrix (ι ⊕ ι) (ι ⊕ ι) ℂ)) = (a : ℂ) • 1 := fun a => by
    ext i j; by_cases h : i = j <;> simp [h, Matrix.one_apply]
  have ez : cj (0 : Matrix ι ι ℂ) = 0 := by ext i j; simp
  constructor
  · rw [h1, cj_blocks, ec, ez, fromBlocks_multiply, Matrix.mul_smul, Matrix.mul_one, fromBlocks_smul, fromBlocks_add]
    congr 1 <;> simp
  · rw [h2, ec2, fromBlocks_multiply, Matrix.mul_smul (fromBlocks (bogF S) 0 0 0), Matrix.mul_one (fromBlocks (bogF S) 0 0 0), fromBlocks_smul, fromBlocks_add]
    congr 1 <;> simp

/-- the matrix of the Choi state, by rescaling that of the unitary -/
theorem choi_M {E F : Matrix ι ι ℂ} (h : Bog E F) (r : ℝ) :
    fromBlocks (F * (cj E)⁻¹) (((Real.tanh r : ℝ) : ℂ) • (E - F * (cj E)⁻¹ * cj F)) (((Real.tanh r : ℝ) : ℂ) • (cj E)⁻¹)
        (((Real.tanh r : ℝ) : ℂ) • ((Real.tanh r : ℝ) : ℂ) • (-((cj E)⁻¹ * cj F))) *
      cj (fromBlocks (((Real.cosh r : ℝ) : ℂ) • E) (((Real.sinh r : ℝ) : ℂ) • F) 0 (((Real.cosh r : ℝ) : ℂ) • 1)) =
      fromBlocks (((Real.cosh r : ℝ) : ℂ) • F) (((Real.sinh r : ℝ) : ℂ) • E) (((Real.sinh r : ℝ) : ℂ) • 1) 0 := by
  have ht : ((Real.tanh r : ℝ) : ℂ) * ((Real.cosh r : ℝ) : ℂ) = ((Real.sinh r : ℝ) : ℂ) := by
    rw [← Complex.ofReal_mul, Real.tanh_eq_sinh_div_cosh, div_mul_cancel₀ _ (Real.cosh_pos r).ne']
  have es : ∀ (a : ℝ) (M : Matrix ι ι ℂ), cj ((a : ℂ) • M) = (a : ℂ) • cj M := fun a M => by ext i j; simp
  have ez : cj (0 : Matrix ι ι ℂ) = 0 := by ext i j; simp
  rw [cj_blocks, es, es, es, ez, cj_one, fromBlocks_multiply]
  generalize ((Real.tanh r : ℝ) : ℂ) = t at *
  generalize ((Real.cosh r : ℝ) : ℂ) = c at *
  generalize ((Real.sinh r : ℝ) : ℂ) = s at *
  subst ht
  congr 1
  · rw [Matrix.mul_zero, add_zero, Matrix.mul_smul, Matrix.mul_assoc, cj_inv_mul h, Matrix.mul_one]
  · rw [Matrix.mul_smul, Matrix.mul_smul, Matrix.mul_one, smul_smul, smul_sub, mul_comm c t]
    abel
  · rw [Matrix.mul_zero, add_zero, Matrix.mul_smul, Matrix.smul_mul, cj_inv_mul h, smul_smul, mul_comm c t]
  · rw [Matrix.mul_smul, Matrix.mul_smul, Matrix.mul_one, Matrix.smul_mul, smul_smul, smul_smul, smul_smul, smul_neg]
    rw [mul_comm t c, add_neg_cancel]

end blocks

/-! #### the Choi state -/

variable {l : ℕ}

/-- the symplectic matrix of the Choi state -/
def choiS (S : Matrix (Fin l ⊕ Fin l) (Fin l ⊕ Fin l) ℝ) (r : ℝ) : Matrix (Fin (2 * l) ⊕ Fin (2 * l)) (Fin (2 * l) ⊕ Fin (2 * l)) ℝ :=
  (sOne S * sTms (Fin l) r).submatrix (Sum.map (quadEquiv l).symm (quadEquiv l).symm) (Sum.map (quadEquiv l).symm (quadEquiv l).symm)

/-- its displacement -/
def choiA (α : Fin l → ℂ) : Fin (2 * l) → ℂ := (Sum.elim α 0) ∘ (quadEquiv l).symm

theorem choiS_symp {S : Matrix (Fin l ⊕ Fin l) (Fin l ⊕ Fin l) ℝ} (hS : S ∈ symplecticGroup (Fin l) ℝ) (r : ℝ) : choiS S r ∈ symplecticGroup (Fin (2 * l)) ℝ :=
  symp_reindex _ (mul_mem (sOne_symp hS) (sTms_symp r))

variable {S : Matrix (Fin l ⊕ Fin l) (Fin l ⊕ Fin l) ℝ}

theorem choi_MM (hS : S ∈ symplecticGroup (Fin l) ℝ) (r : ℝ) :
    bogF (choiS S r) * (cj (bogE (choiS S r)))⁻¹ = (fromBlocks (bogF S * (cj (bogE S))⁻¹) (((Real.tanh r : ℝ) : ℂ) • (bogE S - bogF S * (cj (bogE S))⁻¹ * cj (bogF S)))
        (((Real.tanh r : ℝ) : ℂ) • (cj (bogE S))⁻¹)
        (((Real.tanh r : ℝ) : ℂ) • ((Real.tanh r : ℝ) : ℂ) • (-((cj (bogE S))⁻¹ * cj (bogF S))))).submatrix (quadEquiv l).symm (quadEquiv l).symm := by
  have h := choi_M (symp_bog hS) r
  rw [← (bog_choi S r).1, ← (bog_choi S r).2] at h
  have hE : cj (bogE (choiS S r)) = (cj (bogE (sOne S * sTms (Fin l) r))).submatrix (quadEquiv l).symm (quadEquiv l).symm := rfl
  have hF : bogF (choiS S r) = (bogF (sOne S * sTms (Fin l) r)).submatrix (quadEquiv l).symm (quadEquiv l).symm := rfl
  rw [hF, ← h, ← submatrix_mul_equiv _ _ _ (quadEquiv l).symm, ← hE, Matrix.mul_assoc, cj_mul_inv (symp_bog (choiS_symp hS r)), Matrix.mul_one]

theorem choi_det (r : ℝ) : (bogE (choiS S r)).det = ((Real.cosh r : ℝ) : ℂ) ^ (2 * l) * (bogE S).det := by
  have hE : bogE (choiS S r) = (bogE (sOne S * sTms (Fin l) r)).submatrix (quadEquiv l).symm (quadEquiv l).symm := rfl
  rw [hE, det_submatrix_equiv_self, (bog_choi S r).1, det_fromBlocks_zero₂₁, det_smul, det_smul, det_one, mul_one, Fintype.card_fin]
  ring

theorem choi_vac (hS : S ∈ symplecticGroup (Fin l) ℝ) (r : ℝ) (α : Fin l → ℂ) :
    uVac (bogE (choiS S r)) (bogF (choiS S r)) (choiA α) = uVac (bogE S) (bogF S) α / ((Real.cosh r : ℝ) : ℂ) ^ l := by
  have e1 : ∑ k, ‖choiA α k‖ ^ 2 = ∑ k, ‖α k‖ ^ 2 := by
    rw [← (quadEquiv l).sum_comp, Fintype.sum_sum_type]
    simp [choiA]
  have e2 : star (choiA α) ⬝ᵥ ((bogF (choiS S r) * (cj (bogE (choiS S r)))⁻¹) *ᵥ star (choiA α)) = star α ⬝ᵥ ((bogF S * (cj (bogE S))⁻¹) *ᵥ star α) := by
    rw [choi_MM hS]
    simp only [dotProduct, Matrix.mulVec]
    rw [← (quadEquiv l).sum_comp, Fintype.sum_sum_type]
    simp only [← (quadEquiv l).sum_comp, Fintype.sum_sum_type]
    simp [choiA]
  have e3 : Real.sqrt ‖(bogE (choiS S r)).det‖ = Real.cosh r ^ l * Real.sqrt ‖(bogE S).det‖ := by
    have hc := (Real.cosh_pos r).le
    rw [choi_det, norm_mul, norm_pow, Complex.norm_real, Real.norm_of_nonneg hc, mul_comm 2 l, pow_mul, Real.sqrt_mul (by positivity), Real.sqrt_sq (by positivity)]
  unfold uVac
  rw [e1, e2, e3]
  push_cast
  rw [div_div, mul_comm (Complex.cosh _ ^ l)]

theorem fockAmp_div {d : ℕ} (c k : ℂ) (R : Matrix (Fin d) (Fin d) ℂ) (y : Fin d → ℂ) (n : Fin d → ℕ) : fockAmp (c / k) R y n = fockAmp c R y n / k := by
  rw [fockAmp_eq, fockAmp_eq]; ring

/-- the amplitudes of the Choi state -/
theorem choi_amp (hS : S ∈ symplecticGroup (Fin l) ℝ) (r : ℝ) (α : Fin l → ℂ) (i j : Fin l → ℕ) :
    stAmp (choiS S r) (choiA α) (pairN i j) = ((Real.tanh r : ℝ) : ℂ) ^ (∑ k, j k) / ((Real.cosh r : ℝ) : ℂ) ^ l * gaussU S α i j := by
  have hsc := fockAmp_scale (uVac (bogE S) (bogF S) α) ((uR (bogE S) (bogF S)).submatrix (quadEquiv l).symm (quadEquiv l).symm) ((uR_symm (symp_bog hS)).submatrix _)
    (uY (bogE S) (bogF S) α ∘ (quadEquiv l).symm) ((Sum.elim (fun _ => 1) (fun _ => ((Real.tanh r : ℝ) : ℂ))) ∘ (quadEquiv l).symm) (pairN i j)
  have hp : ∏ x, ((Sum.elim (fun _ => (1 : ℂ)) (fun _ => ((Real.tanh r : ℝ) : ℂ))) ∘ (quadEquiv l).symm) x ^ pairN i j x = ((Real.tanh r : ℝ) : ℂ) ^ (∑ k, j k) := by
    rw [← (quadEquiv l).prod_comp, Fintype.prod_sum_type]
    simp only [Function.comp_apply, Equiv.symm_apply_apply, Sum.elim_inl, Sum.elim_inr, one_pow, Finset.prod_const_one, one_mul, pairN_inr, Finset.prod_pow_eq_pow_sum]
  rw [hp] at hsc
  unfold stAmp
  rw [choi_vac hS, fockAmp_div]
  have hM : bogF (choiS S r) * (cj (bogE (choiS S r)))⁻¹ = of fun a b => ((Sum.elim (fun _ => (1 : ℂ)) (fun _ => ((Real.tanh r : ℝ) : ℂ))) ∘ (quadEquiv l).symm) a *
      (uR (bogE S) (bogF S)).submatrix (quadEquiv l).symm (quadEquiv l).symm a b * ((Sum.elim (fun _ => (1 : ℂ)) (fun _ => ((Real.tanh r : ℝ) : ℂ))) ∘ (quadEquiv l).symm) b := by
    rw [choi_MM hS]
    ext a b
    simp only [submatrix_apply, of_apply, Function.comp_apply]
    rcases (quadEquiv l).symm a with a | a <;> rcases (quadEquiv l).symm b with b | b <;>
      simp only [uR, fromBlocks_apply₁₁, fromBlocks_apply₁₂, fromBlocks_apply₂₁, fromBlocks_apply₂₂, Sum.elim_inl, Sum.elim_inr, one_mul, mul_one, Matrix.smul_apply, smul_eq_mul] <;> ring
  have hY : choiA α - (bogF (choiS S r) * (cj (bogE (choiS S r)))⁻¹) *ᵥ star (choiA α) =
      fun a => ((Sum.elim (fun _ => (1 : ℂ)) (fun _ => ((Real.tanh r : ℝ) : ℂ))) ∘ (quadEquiv l).symm) a * (uY (bogE S) (bogF S) α ∘ (quadEquiv l).symm) a := by
    rw [choi_MM hS]
    funext a
    simp only [Pi.sub_apply, Matrix.mulVec, dotProduct]
    simp only [← (quadEquiv l).sum_comp, Fintype.sum_sum_type]
    simp only [choiA, Function.comp_apply, submatrix_apply, Equiv.symm_apply_apply, Pi.star_apply, Sum.elim_inl, Sum.elim_inr, Pi.zero_apply, star_zero, mul_zero, Finset.sum_const_zero, add_zero]
    rcases (quadEquiv l).symm a with a | a
    · simp only [uY, fromBlocks_apply₁₁, Sum.elim_inl, one_mul, Pi.sub_apply, Matrix.mulVec, dotProduct, Pi.star_apply]
    · simp only [uY, fromBlocks_apply₂₁, Sum.elim_inr, Pi.neg_apply, Matrix.mulVec, dotProduct, Pi.star_apply, Matrix.smul_apply, smul_eq_mul, Pi.zero_apply, zero_sub, mul_neg,
        Finset.mul_sum, mul_assoc]
  rw [hM] at hY ⊢
  rw [hY, hsc]
  unfold gaussU
  ring

end

end Verif.Lemmas.Heis
