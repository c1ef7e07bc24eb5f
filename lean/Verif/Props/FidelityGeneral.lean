/-
C81: the value computed by `fidelity` for two arbitrary physical Gaussian states.
-/
import Verif.Props.FidelityMixed
import Verif.Lemmas.FidelityCore

set_option linter.unusedSectionVars false
set_option linter.unusedSimpArgs false

namespace Verif.Props
open Verif.Model Verif.Model.Symp Verif.Model.Conv Verif.Model.Dec Verif.Model.Fid Verif.Spec Verif.Lemmas Verif.Lemmas.Symp Verif.Lemmas.Heis Verif.Lemmas.FPar Verif.Lemmas.Uhl Matrix
open scoped ComplexOrder

variable {N : ℕ}

theorem dd_add (a b : Fin N → ℝ) : dd a + dd b = dd fun k => a k + b k := by
  rw [dd, dd, diagonal_add]
  congr 1
  funext p; rcases p with p | p <;> rfl

theorem dd_smul (t : ℝ) (a : Fin N → ℝ) : t • dd a = dd fun k => t * a k := by
  rw [dd, ← diagonal_smul]
  congr 1
  funext p; rcases p with p | p <;> rfl

theorem dd_congr {a b : Fin N → ℝ} (h : ∀ k, a k = b k) : dd a = dd b := by rw [funext h]

theorem dd_tr (a : Fin N → ℝ) : (dd a)ᵀ = dd a := diagonal_transpose _

/-- `√(d² - 1/4)` -/
noncomputable def cof (d : Fin N → ℝ) (k : Fin N) : ℝ := Real.sqrt (d k + 1 / 2) * Real.sqrt (d k - 1 / 2)

theorem cof_sq {d : Fin N → ℝ} (hd : ∀ k, 1 / 2 ≤ d k) (k : Fin N) : cof d k * cof d k = d k * d k - 1 / 4 := by
  unfold cof
  have h1 := Real.mul_self_sqrt (show 0 ≤ d k + 1 / 2 by linarith [hd k])
  have h2 := Real.mul_self_sqrt (show 0 ≤ d k - 1 / 2 by linarith [hd k])
  calc _ = (Real.sqrt (d k + 1 / 2) * Real.sqrt (d k + 1 / 2)) * (Real.sqrt (d k - 1 / 2) * Real.sqrt (d k - 1 / 2)) := by ring
    _ = _ := by rw [h1, h2]; ring

section setup
variable {d : Fin N → ℝ} (hd : ∀ k, 1 / 2 ≤ d k)
include hd

theorem negJ_sq : (-J (Fin N) ℝ) * -J (Fin N) ℝ = -1 := by rw [neg_mul_neg, J_squared]

theorem dd_negJ (a : Fin N → ℝ) : (-J (Fin N) ℝ) * dd a = dd a * -J (Fin N) ℝ := by rw [Matrix.neg_mul, Matrix.mul_neg, dd_J]

/-- square roots of `D ± iΩ/2` -/
theorem roots_exist : ∃ K1 K2 : Matrix (Fin N ⊕ Fin N) (Fin N ⊕ Fin N) ℂ, K1ᴴ = K1 ∧ K2ᴴ = K2 ∧ K1 * K1 = cx (dd d) + (Complex.I / 2) • cx (-J (Fin N) ℝ) ∧
    K2 * K2 = cx (dd d) - (Complex.I / 2) • cx (-J (Fin N) ℝ) ∧ K1 * K2 = cx (dd (cof d)) ∧ K2 * K1 = cx (dd (cof d)) := by
  let a : Fin N → ℝ := fun k => (Real.sqrt (d k + 1 / 2) + Real.sqrt (d k - 1 / 2)) / 2
  let b : Fin N → ℝ := fun k => (Real.sqrt (d k + 1 / 2) - Real.sqrt (d k - 1 / 2)) / 2
  have s1 : ∀ k, Real.sqrt (d k + 1 / 2) * Real.sqrt (d k + 1 / 2) = d k + 1 / 2 := fun k => Real.mul_self_sqrt (by linarith [hd k])
  have s2 : ∀ k, Real.sqrt (d k - 1 / 2) * Real.sqrt (d k - 1 / 2) = d k - 1 / 2 := fun k => Real.mul_self_sqrt (by linarith [hd k])
  have cmul : ∀ A B : Matrix (Fin N ⊕ Fin N) (Fin N ⊕ Fin N) ℝ, cx (A * B) = cx A * cx B := fun A B => map_mul _ A B
  have cadd : ∀ A B : Matrix (Fin N ⊕ Fin N) (Fin N ⊕ Fin N) ℝ, cx (A + B) = cx A + cx B := fun A B => map_add _ A B
  have csub : ∀ A B : Matrix (Fin N ⊕ Fin N) (Fin N ⊕ Fin N) ℝ, cx (A - B) = cx A - cx B := fun A B => map_sub _ A B
  have cneg : ∀ A : Matrix (Fin N ⊕ Fin N) (Fin N ⊕ Fin N) ℝ, cx (-A) = -cx A := fun A => map_neg _ A
  have c1 : cx (1 : Matrix (Fin N ⊕ Fin N) (Fin N ⊕ Fin N) ℝ) = 1 := map_one _
  have ctr : ∀ A : Matrix (Fin N ⊕ Fin N) (Fin N ⊕ Fin N) ℝ, (cx A)ᴴ = cx Aᵀ := fun A => by ext i j; simp [cx, conjTranspose_apply]
  set O := -J (Fin N) ℝ with hO
  have hOO : O * O = -1 := negJ_sq hd
  have hOa : ∀ a, O * dd a = dd a * O := fun a => dd_negJ hd a
  have hOt : Oᵀ = -O := by rw [hO, transpose_neg, J_transpose]
  -- the real identities
  have r1 : dd a * dd a + dd b * dd b = dd d := by
    rw [dd_mul, dd_mul, dd_add]
    refine dd_congr fun k => ?_
    simp only [a, b]
    linear_combination (1 / 2) * s1 k + (1 / 2) * s2 k
  have r2 : dd a * dd b = (1 / 4 : ℝ) • 1 := by
    rw [dd_mul, ← dd_one, dd_smul]
    refine dd_congr fun k => ?_
    simp only [a, b]
    linear_combination (1 / 4) * s1 k - (1 / 4) * s2 k
  have r3 : dd a * dd a - dd b * dd b = dd (cof d) := by
    rw [sub_eq_iff_eq_add, dd_mul, dd_mul, dd_add]
    refine dd_congr fun k => ?_
    simp only [a, b, cof]
    ring
  have hab : dd a * dd b = dd b * dd a := by rw [dd_mul, dd_mul]; exact dd_congr fun k => mul_comm _ _
  have m1 : cx O * cx (dd b) * (cx O * cx (dd b)) = -(cx (dd b) * cx (dd b)) := by
    rw [← cmul, ← cmul, hOa, Matrix.mul_assoc, ← Matrix.mul_assoc O, hOa, Matrix.mul_assoc (dd b), hOO, ← cmul, ← cneg]
    simp
  have m2 : cx (dd a) * (cx O * cx (dd b)) = (1 / 4 : ℂ) • cx O := by
    rw [← cmul, ← cmul, hOa, ← Matrix.mul_assoc, r2, Matrix.smul_mul, Matrix.one_mul, cx_smul]; push_cast; rfl
  have m3 : cx O * cx (dd b) * cx (dd a) = (1 / 4 : ℂ) • cx O := by
    rw [← cmul, ← cmul, Matrix.mul_assoc, ← hab, r2, Matrix.mul_smul, Matrix.mul_one, cx_smul]; push_cast; rfl
  have hI := Complex.I_mul_I
  have hq : cx (dd a) * cx (dd a) + cx (dd b) * cx (dd b) = cx (dd d) := by rw [← cmul, ← cmul, ← cadd, r1]
  have hq2 : cx (dd a) * cx (dd a) - cx (dd b) * cx (dd b) = cx (dd (cof d)) := by rw [← cmul, ← cmul, ← csub, r3]
  have hherm : ((Complex.I) • (cx O * cx (dd b)))ᴴ = (Complex.I) • (cx O * cx (dd b)) := by
    rw [conjTranspose_smul, ← cmul, ctr, transpose_mul, dd_tr, hOt, Matrix.mul_neg, cneg, ← hOa]
    simp
  refine ⟨cx (dd a) + Complex.I • (cx O * cx (dd b)), cx (dd a) - Complex.I • (cx O * cx (dd b)), ?_, ?_, ?_, ?_, ?_, ?_⟩
  · rw [conjTranspose_add, hherm, ctr, dd_tr]
  · rw [conjTranspose_sub, hherm, ctr, dd_tr]
  · rw [Matrix.add_mul, Matrix.mul_add, Matrix.mul_add, Matrix.mul_smul, Matrix.smul_mul, Matrix.smul_mul, Matrix.mul_smul, m1, m2, m3, ← hq]
    simp only [smul_smul, hI, neg_smul, one_smul, smul_neg, neg_neg]
    have : (Complex.I / 2) • cx O = (Complex.I * (1 / 4)) • cx O + (Complex.I * (1 / 4)) • cx O := by rw [← add_smul]; congr 1; ring
    rw [this]; abel
  · rw [Matrix.sub_mul, Matrix.mul_sub, Matrix.mul_sub, Matrix.mul_smul, Matrix.smul_mul, Matrix.smul_mul, Matrix.mul_smul, m1, m2, m3, ← hq]
    simp only [smul_smul, hI, neg_smul, one_smul, smul_neg, neg_neg]
    have : (Complex.I / 2) • cx O = (Complex.I * (1 / 4)) • cx O + (Complex.I * (1 / 4)) • cx O := by rw [← add_smul]; congr 1; ring
    rw [this]; abel
  · rw [Matrix.add_mul, Matrix.mul_sub, Matrix.mul_sub, Matrix.mul_smul, Matrix.smul_mul, Matrix.smul_mul, Matrix.mul_smul, m1, m2, m3, ← hq2]
    simp only [smul_smul, hI, neg_smul, one_smul, smul_neg, neg_neg]
    abel
  · rw [Matrix.sub_mul, Matrix.mul_add, Matrix.mul_add, Matrix.mul_smul, Matrix.smul_mul, Matrix.smul_mul, Matrix.mul_smul, m1, m2, m3, ← hq2]
    simp only [smul_smul, hI, neg_smul, one_smul, smul_neg, neg_neg]
    abel

/-- the covariance matrix of `√ρ σ √ρ` is physical, and the matrix of the code has the same eigenvalues -/
theorem vaux_general (s : Matrix (Fin N ⊕ Fin N) (Fin N ⊕ Fin N) ℝ) (hs : Physical s 1) :
    Physical (sM (dd d) (dd (cof d)) (dd d + s)⁻¹) 1 ∧
    ∀ ν : Fin N → ℝ, SympSpectrum ((2 : ℝ) • sM (dd d) (dd (cof d)) (dd d + s)⁻¹) ν → (∀ k, 1 ≤ ν k) →
      ∃ (T : Matrix (Fin N ⊕ Fin N) (Fin N ⊕ Fin N) ℝ) (e : Fin N ⊕ Fin N → ℝ), IsUnit T.det ∧ (∀ p, e p ≤ -(1 / 4)) ∧
        vauxM (dd d) s * -J (Fin N) ℝ * vauxM (dd d) s * -J (Fin N) ℝ = T * diagonal e * T⁻¹ ∧
        (∀ f : ℝ → ℝ, ∏ p, f (e p) = ∏ k, f (-(ν k * ν k / 4)) * f (-(ν k * ν k / 4))) ∧ (vauxM (dd d) s).det = ∏ k, ν k / 2 * (ν k / 2) := by
  obtain ⟨K1, K2, h1, h2, h11, h22, h12, h21⟩ := roots_exist hd
  have hpd : (dd d + s).PosDef := by
    refine PosDef.add_posSemidef (PosDef.diagonal fun p => ?_) (physical_posDef s 1 one_pos hs).posSemidef
    rcases p with p | p <;> exact lt_of_lt_of_le (by norm_num) (hd p)
  have hu : IsUnit (dd d + s).det := isUnit_iff_ne_zero.mpr hpd.det_pos.ne'
  have hst : sᵀ = s := hs.1
  have hgt : ((dd d + s)⁻¹)ᵀ = (dd d + s)⁻¹ := by rw [transpose_nonsing_inv, transpose_add, dd_tr, hst]
  have hg : (dd d + s)⁻¹ * (dd d + s) = 1 := nonsing_inv_mul _ hu
  have hOt : (-J (Fin N) ℝ)ᵀ = -(-J (Fin N) ℝ) := by rw [omega_tr, neg_neg]
  have hOm : omega N = cx (-J (Fin N) ℝ) := by
    ext p q
    rcases p with p | p <;> rcases q with q | q <;> simp [omega, cx, J, Matrix.one_apply] <;> split_ifs <;> simp
  have hcoe : (Complex.I * ((1 / 2 : ℝ) : ℂ)) = Complex.I / 2 := by push_cast; ring
  have hsp : (cx s + (Complex.I / 2) • cx (-J (Fin N) ℝ)).PosSemidef := by
    have := hs.2
    rw [hOm, hcoe] at this
    exact this
  have ctr : ∀ A : Matrix (Fin N ⊕ Fin N) (Fin N ⊕ Fin N) ℝ, (cx A)ᴴ = cx Aᵀ := fun A => by ext i j; simp [cx, conjTranspose_apply]
  set g := (dd d + s)⁻¹ with hgd
  have hCC : dd (cof d) * dd (cof d) = dd d * dd d - (1 / 4 : ℝ) • 1 := by
    rw [eq_sub_iff_add_eq, ← dd_one, dd_smul, dd_mul, dd_mul, dd_add]
    exact dd_congr fun k => by rw [cof_sq hd]; ring
  have hDC : dd d * dd (cof d) = dd (cof d) * dd d := by rw [dd_mul, dd_mul]; exact dd_congr fun k => mul_comm _ _
  have hphys : Physical (sM (dd d) (dd (cof d)) g) 1 := by
    refine ⟨?_, ?_⟩
    · show (sM (dd d) (dd (cof d)) g)ᵀ = _
      rw [sM, transpose_sub, transpose_mul, transpose_mul, dd_tr, dd_tr, hgt, Matrix.mul_assoc]
    · rw [hOm, hcoe]
      have hgc : cx g * (cx (dd d) + cx s) = 1 := by
        have e1 : cx (dd d) + cx s = cx (dd d + s) := (map_add _ _ _).symm
        have e2 : cx (g * (dd d + s)) = cx g * cx (dd d + s) := map_mul _ _ _
        rw [e1, ← e2, hg]; exact map_one _
      have := sM_physical h1 h2 h11 h22 h12 h21 (by rw [ctr, hgt]) (by rw [ctr, dd_tr]) hgc hsp
      have e3 : (sM (dd d) (dd (cof d)) g).map Complex.ofReal = sM (cx (dd d)) (cx (dd (cof d))) (cx g) := by
        have e4 : cx (sM (dd d) (dd (cof d)) g) = cx (dd d) - cx (dd (cof d)) * cx g * cx (dd (cof d)) := by
          rw [sM, cx, map_sub, map_mul, map_mul]
        exact e4
      rw [e3]; exact this
  refine ⟨hphys, fun ν ⟨hν0, S, hS, hSν⟩ hν => ?_⟩
  have hSu := symp_unit hS
  have hStu : IsUnit Sᵀ.det := by rwa [det_transpose]
  have hsm : sM (dd d) (dd (cof d)) g = S * dd (fun k => ν k / 2) * Sᵀ := by
    have e1 := congrArg (fun X => (1 / 2 : ℝ) • X) hSν
    simp only [smul_smul] at e1
    norm_num at e1
    rw [e1]
    have e2 : dd (fun k => ν k / 2) = (1 / 2 : ℝ) • diagonal (Sum.elim ν ν) := by
      rw [← dd, dd_smul]; exact dd_congr fun k => by ring
    rw [e2, Matrix.mul_smul, Matrix.smul_mul]
  have hSJ : -J (Fin N) ℝ * S = (Sᵀ)⁻¹ * -J (Fin N) ℝ := by
    have := symp_tr_J hS
    rw [Matrix.neg_mul, Matrix.mul_neg, neg_inj]
    conv_rhs => rw [← this]
    rw [nonsing_inv_mul_cancel_left _ _ hStu]
  have hsq : -J (Fin N) ℝ * sM (dd d) (dd (cof d)) g * (-J (Fin N) ℝ * sM (dd d) (dd (cof d)) g) = (Sᵀ)⁻¹ * diagonal (Sum.elim (fun k => -(ν k * ν k / 4)) fun k => -(ν k * ν k / 4)) * ((Sᵀ)⁻¹)⁻¹ := by
    rw [nonsing_inv_nonsing_inv _ hStu, hsm]
    have e1 : -J (Fin N) ℝ * (S * dd (fun k => ν k / 2) * Sᵀ) = (Sᵀ)⁻¹ * (-J (Fin N) ℝ * dd fun k => ν k / 2) * Sᵀ := by
      rw [← Matrix.mul_assoc, ← Matrix.mul_assoc, hSJ]
      simp only [Matrix.mul_assoc]
    rw [e1]
    have e2 : (Sᵀ)⁻¹ * (-J (Fin N) ℝ * dd fun k => ν k / 2) * Sᵀ * ((Sᵀ)⁻¹ * (-J (Fin N) ℝ * dd fun k => ν k / 2) * Sᵀ) =
        (Sᵀ)⁻¹ * ((-J (Fin N) ℝ * dd fun k => ν k / 2) * (-J (Fin N) ℝ * dd fun k => ν k / 2)) * Sᵀ := by
      simp only [Matrix.mul_assoc, mul_nonsing_inv_cancel_left _ _ hStu]
    rw [e2]
    congr 2
    have e3 : (-J (Fin N) ℝ * dd fun k => ν k / 2) * (-J (Fin N) ℝ * dd fun k => ν k / 2) = -(dd (fun k => ν k / 2) * dd fun k => ν k / 2) := by
      conv_lhs => rw [dd_negJ hd (fun k => ν k / 2), Matrix.mul_assoc, ← Matrix.mul_assoc (-J (Fin N) ℝ), dd_negJ hd (fun k => ν k / 2)]
      rw [Matrix.mul_assoc, negJ_sq hd]
      simp
    rw [e3, dd_mul, ← neg_one_smul ℝ (dd _), dd_smul]
    exact dd_congr fun k => by ring
  obtain ⟨T, e, hT, he, hTe, hf, hdet⟩ := bM_diag (O := -J (Fin N) ℝ) h1 h2 h11 h22 h12 h21 hgt (dd_tr _) hst hOt hg hsp (negJ_sq hd) (dd_negJ hd _) (dd_negJ hd _) hDC hCC
    (P := (Sᵀ)⁻¹) (by rw [isUnit_nonsing_inv_det_iff]; exact hStu) hsq (fun t => by
      have e1 : (t • (1 : Matrix (Fin N ⊕ Fin N) (Fin N ⊕ Fin N) ℝ) - -J (Fin N) ℝ * dd d) * (t • 1 + -J (Fin N) ℝ * dd d) = dd fun k => t * t + d k * d k := by
        have e3 : (-J (Fin N) ℝ * dd d) * (-J (Fin N) ℝ * dd d) = -(dd d * dd d) := by
          conv_lhs => rw [dd_negJ hd d, Matrix.mul_assoc, ← Matrix.mul_assoc (-J (Fin N) ℝ), dd_negJ hd d]
          rw [Matrix.mul_assoc, negJ_sq hd]
          simp
        rw [Matrix.sub_mul, Matrix.mul_add, Matrix.mul_add, e3]
        simp only [Matrix.smul_mul, Matrix.mul_smul, Matrix.one_mul, Matrix.mul_one, smul_smul]
        have e4 : (t * t) • (1 : Matrix (Fin N ⊕ Fin N) (Fin N ⊕ Fin N) ℝ) = dd fun _ => t * t := by
          rw [← dd_one, dd_smul]; exact dd_congr fun k => by ring
        rw [e4, dd_mul, ← dd_add]
        abel
      have e2 : (dd fun k => t * t + d k * d k).det ≠ 0 := by
        rw [dd_det]
        have : ∏ k, (t * t + d k * d k) ≠ 0 := Finset.prod_ne_zero_iff.mpr fun k _ => by
          have := hd k
          nlinarith [mul_self_nonneg t, mul_self_nonneg (d k)]
        exact mul_ne_zero this this
      rw [← e1, det_mul] at e2
      exact isUnit_iff_ne_zero.mpr (left_ne_zero_of_mul e2))
  have hv : vauxM (dd d) s = (-J (Fin N) ℝ)ᵀ * bM (-J (Fin N) ℝ) (dd d) s g := by
    rw [vauxM, bM, ← hgd, Matrix.mul_assoc]
  have hJJ : -J (Fin N) ℝ * (-J (Fin N) ℝ)ᵀ = 1 := by rw [hOt, Matrix.mul_neg, negJ_sq hd, neg_neg]
  have hJJ' : (-J (Fin N) ℝ)ᵀ * -J (Fin N) ℝ = 1 := by rw [hOt, Matrix.neg_mul, negJ_sq hd, neg_neg]
  have hJ1 : (-J (Fin N) ℝ).det = 1 := SymplecticGroup.det_eq_one (SymplecticGroup.neg_mem (SymplecticGroup.J_mem _ _))
  refine ⟨(-J (Fin N) ℝ)ᵀ * T, e, by rw [det_mul, det_transpose, hJ1, one_mul]; exact hT, fun p => ?_, ?_, fun f => ?_, ?_⟩
  · rcases he p with h | ⟨q, h⟩
    · rw [h]
    · rw [h]
      rcases q with q | q <;> simp only [Sum.elim_inl, Sum.elim_inr] <;> nlinarith [hν q]
  · have e1 : ((-J (Fin N) ℝ)ᵀ * T)⁻¹ = T⁻¹ * -J (Fin N) ℝ := by
      rw [Matrix.mul_inv_rev]
      congr 1
      exact Matrix.inv_eq_left_inv hJJ
    rw [hv, e1]
    have e2 : (-J (Fin N) ℝ)ᵀ * T * diagonal e * (T⁻¹ * -J (Fin N) ℝ) = (-J (Fin N) ℝ)ᵀ * (T * diagonal e * T⁻¹) * -J (Fin N) ℝ := by simp only [Matrix.mul_assoc]
    rw [e2, ← hTe]
    have e3 : ∀ X : Matrix (Fin N ⊕ Fin N) (Fin N ⊕ Fin N) ℝ, -J (Fin N) ℝ * ((-J (Fin N) ℝ)ᵀ * X) = X := fun X => by rw [← Matrix.mul_assoc, hJJ, Matrix.one_mul]
    simp only [Matrix.mul_assoc, e3]
  · rw [hf f, Fintype.prod_sum_type, ← Finset.prod_mul_distrib]
    rfl
  · rw [hv, det_mul, det_transpose, hJ1, one_mul, hdet, det_mul, hJ1, one_mul, hsm, det_mul, det_mul, det_transpose, SymplecticGroup.det_eq_one hS, one_mul, mul_one, dd_det, ← Finset.prod_mul_distrib]

end setup

section covariance
variable {S : Matrix (Fin N ⊕ Fin N) (Fin N ⊕ Fin N) ℝ} (hS : S ∈ symplecticGroup (Fin N) ℝ)
include hS

theorem vaux_symp (a b : Matrix (Fin N ⊕ Fin N) (Fin N ⊕ Fin N) ℝ) : vauxM (S * a * Sᵀ) (S * b * Sᵀ) = S * vauxM a b * Sᵀ := by
  have hu := symp_unit hS
  have hut : IsUnit Sᵀ.det := by rwa [det_transpose]
  have h1 : J (Fin N) ℝ * (Sᵀ)⁻¹ = S * J (Fin N) ℝ := by
    rw [← Matrix.mul_one (S * J (Fin N) ℝ), ← mul_nonsing_inv _ hut, ← Matrix.mul_assoc, SymplecticGroup.mem_iff.mp hS]
  have h2 : (S * a * Sᵀ + S * b * Sᵀ)⁻¹ = (Sᵀ)⁻¹ * ((a + b)⁻¹ * S⁻¹) := by
    rw [← Matrix.add_mul, ← Matrix.mul_add, Matrix.mul_inv_rev, Matrix.mul_inv_rev]
  have h3 : (1 / 4 : ℝ) • (-J (Fin N) ℝ) + S * b * Sᵀ * -J (Fin N) ℝ * (S * a * Sᵀ) = S * ((1 / 4 : ℝ) • (-J (Fin N) ℝ) + b * -J (Fin N) ℝ * a) * Sᵀ := by
    rw [Matrix.mul_add, Matrix.add_mul, Matrix.mul_smul, Matrix.smul_mul, Matrix.mul_neg S, Matrix.neg_mul (S * J (Fin N) ℝ), SymplecticGroup.mem_iff.mp hS]
    congr 1
    have e : Sᵀ * (-J (Fin N) ℝ * (S * (a * Sᵀ))) = -J (Fin N) ℝ * (a * Sᵀ) := by
      rw [Matrix.neg_mul, Matrix.mul_neg, ← Matrix.mul_assoc (J (Fin N) ℝ), ← Matrix.mul_assoc Sᵀ, symp_tr_J hS, Matrix.neg_mul]
    simp only [Matrix.mul_assoc]
    rw [e]
  rw [vauxM, vauxM, h2, h3, omega_tr]
  have e2 : J (Fin N) ℝ * ((Sᵀ)⁻¹ * ((a + b)⁻¹ * S⁻¹)) * (S * ((1 / 4 : ℝ) • (-J (Fin N) ℝ) + b * -J (Fin N) ℝ * a) * Sᵀ) =
      (J (Fin N) ℝ * (Sᵀ)⁻¹) * ((a + b)⁻¹ * (S⁻¹ * (S * (((1 / 4 : ℝ) • (-J (Fin N) ℝ) + b * -J (Fin N) ℝ * a) * Sᵀ)))) := by simp only [Matrix.mul_assoc]
  rw [e2, h1, nonsing_inv_mul_cancel_left _ _ hu]
  simp only [Matrix.mul_assoc]

theorem vaux_symp_sq (v : Matrix (Fin N ⊕ Fin N) (Fin N ⊕ Fin N) ℝ) : S * v * Sᵀ * -J (Fin N) ℝ * (S * v * Sᵀ) * -J (Fin N) ℝ = S * (v * -J (Fin N) ℝ * v * -J (Fin N) ℝ) * S⁻¹ := by
  have hu := symp_unit hS
  have h1 : Sᵀ * -J (Fin N) ℝ = -J (Fin N) ℝ * S⁻¹ := by
    have := symp_tr_J hS
    have e : Sᵀ * J (Fin N) ℝ = J (Fin N) ℝ * S⁻¹ := by
      conv_rhs => rw [← this]
      simp only [Matrix.mul_assoc, mul_nonsing_inv _ hu, Matrix.mul_one]
    rw [Matrix.mul_neg, Matrix.neg_mul, e]
  have h2 : ∀ X, Sᵀ * (-J (Fin N) ℝ * X) = -J (Fin N) ℝ * (S⁻¹ * X) := fun X => by rw [← Matrix.mul_assoc, h1, Matrix.mul_assoc]
  simp only [Matrix.mul_assoc, h1, h2, nonsing_inv_mul_cancel_left _ _ hu]

end covariance

theorem root_one_sub {x : ℝ} (hx : 1 ≤ x) : 2 * (Real.sqrt (1 + 1 / 4 * (-(x * x / 4))⁻¹) + 1) * (x / 2) = x + Real.sqrt (x * x - 1) := by
  have h0 : x ≠ 0 := by linarith
  have e : x * x - 1 = x * x * (1 + 1 / 4 * (-(x * x / 4))⁻¹) := by field_simp; ring
  rw [e, Real.sqrt_mul (mul_self_nonneg x), Real.sqrt_mul_self (by linarith)]
  ring

/-- the value of `fidelity`, with the first state in Williamson form in suitable coordinates -/
theorem fidelity_value {sqrtm : ℕ → RArr → RArr} (hsq : SqrtmDiagContract sqrtm) (close : ℝ → ℝ → Bool) (hc : ∀ x, close x 0 = true → x = 0) (mu1 mu2 : ℕ → ℝ) (cov1 cov2 : RArr) (hbar : ℝ) (hh : 0 < hbar)
    (S s : Matrix (Fin N ⊕ Fin N) (Fin N ⊕ Fin N) ℝ) (hS : S ∈ symplecticGroup (Fin N) ℝ) (d : Fin N → ℝ) (hd : ∀ k, 1 / 2 ≤ d k) (hs : Physical s 1)
    (h1 : phase N N cov1 = hbar • (S * dd d * Sᵀ)) (h2 : phase N N cov2 = hbar • (S * s * Sᵀ)) (m : Fin N ⊕ Fin N → ℝ) (hm : phaseVec N mu1 - phaseVec N mu2 = Real.sqrt hbar • S *ᵥ m)
    (ν : Fin N → ℝ) (hsp : SympSpectrum ((2 : ℝ) • sM (dd d) (dd (cof d)) (dd d + s)⁻¹) ν) (hν : ∀ k, 1 ≤ ν k) :
    fidelity sqrtm close (2 * N) mu1 (2 * N) (2 * N) cov1 (2 * N) mu2 (2 * N) (2 * N) cov2 hbar =
      .ok ((∏ k, (ν k + Real.sqrt (ν k * ν k - 1))) / Real.sqrt (dd d + s).det * Real.exp (-(1 / 2) * (m ⬝ᵥ (dd d + s)⁻¹ *ᵥ m))) := by
  obtain ⟨T, e, hT, he, hTe, hf, hdet⟩ := (vaux_general hd s hs).2 ν hsp hν
  have hS1 := SymplecticGroup.det_eq_one hS
  have hu := symp_unit hS
  have hut : IsUnit Sᵀ.det := by rwa [det_transpose]
  have hpd : (dd d + s).PosDef := by
    refine PosDef.add_posSemidef (PosDef.diagonal fun p => ?_) (physical_posDef s 1 one_pos hs).posSemidef
    rcases p with p | p <;> exact lt_of_lt_of_le (by norm_num) (hd p)
  have hsum : S * dd d * Sᵀ + S * s * Sᵀ = S * (dd d + s) * Sᵀ := by rw [Matrix.mul_add, Matrix.add_mul]
  have hdsum : (S * dd d * Sᵀ + S * s * Sᵀ).det = (dd d + s).det := by rw [hsum, det_mul, det_mul, det_transpose, hS1, one_mul, mul_one]
  have hsc : ∀ X : Matrix (Fin N ⊕ Fin N) (Fin N ⊕ Fin N) ℝ, (1 / hbar) • (hbar • X) = X := fun X => by rw [smul_smul, one_div_mul_cancel hh.ne', one_smul]
  have he0 : ∀ p, e p ≠ 0 := fun p => by linarith [he p]
  have hST : IsUnit (S * T).det := by rw [det_mul, hS1, one_mul]; exact hT
  have hmain : S * vauxM (dd d) s * Sᵀ * -J (Fin N) ℝ * (S * vauxM (dd d) s * Sᵀ) * -J (Fin N) ℝ = S * T * diagonal e * (S * T)⁻¹ := by
    rw [vaux_symp_sq hS, hTe, Matrix.mul_inv_rev]; simp only [Matrix.mul_assoc]
  have hinv : (S * T * diagonal e * (S * T)⁻¹)⁻¹ = S * T * diagonal (fun p => (e p)⁻¹) * (S * T)⁻¹ := by
    apply Matrix.inv_eq_left_inv
    have e1 : S * T * diagonal (fun p => (e p)⁻¹) * (S * T)⁻¹ * (S * T * diagonal e * (S * T)⁻¹) = S * T * (diagonal (fun p => (e p)⁻¹) * diagonal e) * (S * T)⁻¹ := by
      rw [Matrix.mul_assoc _ (S * T)⁻¹, ← Matrix.mul_assoc (S * T)⁻¹, ← Matrix.mul_assoc (S * T)⁻¹, nonsing_inv_mul _ hST, Matrix.one_mul]
      simp only [Matrix.mul_assoc]
    rw [e1, diagonal_mul_diagonal]
    have e2 : (fun p => (e p)⁻¹ * e p) = fun _ => 1 := funext fun p => inv_mul_cancel₀ (he0 p)
    rw [e2, diagonal_one, Matrix.mul_one, mul_nonsing_inv _ hST]
  have hr := fidelity_run hsq close mu1 mu2 cov1 cov2 hbar (S * dd d * Sᵀ) (S * s * Sᵀ) (S * vauxM (dd d) s * Sᵀ) (S * T) (fun p => 1 + 1 / 4 * (e p)⁻¹) (by rw [h1, hsc]) (by rw [h2, hsc])
    (by rw [hdsum]; exact hpd.det_pos.ne') (vaux_symp hS _ _) (by
      rw [hmain, det_mul, det_mul, det_nonsing_inv, mul_right_comm, Ring.mul_inverse_cancel _ hST, one_mul, det_diagonal]
      exact Finset.prod_ne_zero_iff.mpr fun p _ => he0 p) hST (fun p => by
      have h3 := he p
      have : (e p)⁻¹ = -(-e p)⁻¹ := by rw [inv_neg, neg_neg]
      have h4 : (-e p)⁻¹ ≤ 4 := by rw [inv_le_comm₀ (by linarith) (by norm_num)]; linarith
      rw [this]; linarith) (by
      rw [hmain, hinv]
      have e1 : diagonal (fun p => 1 + 1 / 4 * (e p)⁻¹) = 1 + (1 / 4 : ℝ) • diagonal fun p => (e p)⁻¹ := by
        rw [← diagonal_one, ← diagonal_smul, diagonal_add]; rfl
      rw [e1, Matrix.mul_add, Matrix.add_mul, Matrix.mul_one, mul_nonsing_inv _ hST, Matrix.mul_smul, Matrix.smul_mul]) (.inl hc)
  rw [hr, hm]
  have hs0 : Real.sqrt hbar ≠ 0 := (Real.sqrt_pos.mpr hh).ne'
  have hexp : ((1 / Real.sqrt hbar) • Real.sqrt hbar • S *ᵥ m) ⬝ᵥ (S * dd d * Sᵀ + S * s * Sᵀ)⁻¹ *ᵥ ((1 / Real.sqrt hbar) • Real.sqrt hbar • S *ᵥ m) = m ⬝ᵥ (dd d + s)⁻¹ *ᵥ m := by
    rw [smul_smul, one_div_mul_cancel hs0, one_smul, hsum, Matrix.mul_inv_rev, Matrix.mul_inv_rev, Matrix.mulVec_mulVec, Matrix.mul_assoc, Matrix.mul_assoc, nonsing_inv_mul _ hu, Matrix.mul_one,
      ← Matrix.mulVec_mulVec, Matrix.dotProduct_mulVec, ← Matrix.vecMul_transpose S m, Matrix.vecMul_vecMul, mul_nonsing_inv _ hut, Matrix.vecMul_one]
  rw [hexp, hsum]
  congr 2
  have hX : S * T * diagonal (fun p => Real.sqrt (1 + 1 / 4 * (e p)⁻¹)) * (S * T)⁻¹ + 1 = S * T * diagonal (fun p => Real.sqrt (1 + 1 / 4 * (e p)⁻¹) + 1) * (S * T)⁻¹ := by
    have e1 : diagonal (fun p => Real.sqrt (1 + 1 / 4 * (e p)⁻¹) + 1) = diagonal (fun p => Real.sqrt (1 + 1 / 4 * (e p)⁻¹)) + 1 := by
      rw [← diagonal_one, diagonal_add]
    rw [e1, Matrix.mul_add, Matrix.add_mul, Matrix.mul_one, mul_nonsing_inv _ hST]
  rw [hX, det_smul, det_mul, det_mul, det_mul, det_nonsing_inv (S * T), mul_right_comm (S * T).det, Ring.mul_inverse_cancel _ hST, one_mul, det_diagonal, det_mul, det_mul, det_transpose, hS1, one_mul, mul_one, hdet,
    hf fun x => Real.sqrt (1 + 1 / 4 * x⁻¹) + 1, det_nonsing_inv, ← hsum, hdsum, Ring.inverse_eq_inv']
  have hcard : (2 : ℝ) ^ Fintype.card (Fin N ⊕ Fin N) = ∏ _k : Fin N, (2 * 2 : ℝ) := by
    rw [Finset.prod_const, Finset.card_univ, Fintype.card_sum, Fintype.card_fin, mul_pow, pow_add]
  rw [hcard, ← Finset.prod_mul_distrib, ← Finset.prod_mul_distrib]
  have hp : ∏ k, 2 * 2 * ((Real.sqrt (1 + 1 / 4 * (-(ν k * ν k / 4))⁻¹) + 1) * (Real.sqrt (1 + 1 / 4 * (-(ν k * ν k / 4))⁻¹) + 1) * (ν k / 2 * (ν k / 2))) =
      (∏ k, (ν k + Real.sqrt (ν k * ν k - 1))) * ∏ k, (ν k + Real.sqrt (ν k * ν k - 1)) := by
    rw [← Finset.prod_mul_distrib]
    refine Finset.prod_congr rfl fun k _ => ?_
    rw [← root_one_sub (hν k)]; ring
  rw [hp, Real.sqrt_mul (inv_nonneg.mpr hpd.det_pos.le), Real.sqrt_mul_self (Finset.prod_nonneg fun k _ => by have := hν k; positivity), Real.sqrt_inv]
  ring

end Verif.Props
