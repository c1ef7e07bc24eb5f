/-
C81: `fidelity` is the Uhlmann fidelity of the density matrices, for two arbitrary physical Gaussian states.
-/
import Verif.Props.FidelityGeneral
import Verif.Spec.Fidelity

set_option linter.unusedSectionVars false
set_option linter.unusedSimpArgs false

namespace Verif.Props
open Verif.Model Verif.Model.Symp Verif.Model.Conv Verif.Model.Dec Verif.Model.Fid Verif.Spec Verif.Lemmas Verif.Lemmas.Symp Verif.Lemmas.Heis Verif.Lemmas.FPar Verif.Lemmas.Uhl Matrix

variable {N : ℕ}

section scale
variable {n : Type} [Fintype n] [DecidableEq n] {E F G C W sg : Matrix n n ℝ}

/-- multiplication of a Gaussian kernel by `G` on both sides: the matrix -/
theorem scale_inv (hEF : F * E = 1) (hC : C = E * G) (hC' : C = G * E) (hW : IsUnit W.det) (hsg : IsUnit sg.det) (hs : sg = W + G * E * G) :
    (E - C * sg⁻¹ * C)⁻¹ = F + G * W⁻¹ * G := by
  have hEF' : E * F = 1 := mul_eq_one_comm.mp hEF
  apply Matrix.inv_eq_right_inv
  have e1 : (E - C * sg⁻¹ * C) * (F + G * W⁻¹ * G) = E * F + E * G * W⁻¹ * G - C * sg⁻¹ * (C * F) - C * sg⁻¹ * (C * G) * W⁻¹ * G := by noncomm_ring
  have e2 : C * F = G := by rw [hC', Matrix.mul_assoc, hEF', Matrix.mul_one]
  have e3 : C * G = sg - W := by rw [hC', hs]; abel
  have e4 : C * sg⁻¹ * (sg - W) = C - C * sg⁻¹ * W := by
    rw [Matrix.mul_sub, Matrix.mul_assoc C sg⁻¹ sg, nonsing_inv_mul _ hsg, Matrix.mul_one]
  rw [e1, e2, e3, e4, hEF', ← hC, Matrix.sub_mul, Matrix.mul_assoc (C * sg⁻¹) W, mul_nonsing_inv _ hW, Matrix.mul_one, Matrix.sub_mul]
  abel

theorem scale_mean (hEF : F * E = 1) (hC : C = E * G) (hW : IsUnit W.det) (hsg : IsUnit sg.det) (hs : sg = W + G * E * G) : (F + G * W⁻¹ * G) * (C * sg⁻¹) = G * W⁻¹ := by
  have e1 : (F + G * W⁻¹ * G) * C = G * W⁻¹ * sg := by
    rw [Matrix.add_mul, hs, Matrix.mul_add, Matrix.mul_assoc G W⁻¹ W, nonsing_inv_mul _ hW, Matrix.mul_one, hC, ← Matrix.mul_assoc F, hEF, Matrix.one_mul]
    simp only [Matrix.mul_assoc]
  rw [← Matrix.mul_assoc, e1, Matrix.mul_assoc, mul_nonsing_inv _ hsg, Matrix.mul_one]

theorem scale_det (hC : C = E * G) (hC' : C = G * E) (hsg : IsUnit sg.det) (hs : sg = W + G * E * G) : (E - C * sg⁻¹ * C).det * sg.det = E.det * W.det := by
  have e1 : E - C * sg⁻¹ * C = E * (1 - G * (sg⁻¹ * C)) := by rw [Matrix.mul_sub, Matrix.mul_one, ← Matrix.mul_assoc, ← hC]; simp only [Matrix.mul_assoc]
  have e2 : (1 - G * (sg⁻¹ * C)).det = (1 - sg⁻¹ * C * G).det := det_one_sub_mul_comm _ _
  have e3 : C * G = sg - W := by rw [hC', hs]; abel
  have e4 : 1 - sg⁻¹ * C * G = sg⁻¹ * W := by
    rw [Matrix.mul_assoc, e3, Matrix.mul_sub, nonsing_inv_mul _ hsg]; abel
  rw [e1, det_mul, e2, e4, det_mul, det_nonsing_inv]
  have := Ring.inverse_mul_cancel _ hsg
  linear_combination E.det * W.det * this

theorem dot_symm {A : Matrix n n ℝ} (hA : Aᵀ = A) (x y : n → ℝ) : x ⬝ᵥ A *ᵥ y = y ⬝ᵥ A *ᵥ x := by
  rw [Matrix.dotProduct_mulVec, dotProduct_comm, ← Matrix.mulVec_transpose, hA]

/-- the quadratic forms -/
theorem scale_quad (hEF : F * E = 1) (hC : C = E * G) (hC' : C = G * E) (hW : IsUnit W.det) (hsg : IsUnit sg.det) (hs : sg = W + G * E * G) (hFt : Fᵀ = F) (hGt : Gᵀ = G) (hCt : Cᵀ = C) (hWt : Wᵀ = W)
    (hst : sgᵀ = sg) (ξ m : n → ℝ) :
    (ξ - (C * sg⁻¹) *ᵥ m) ⬝ᵥ (E - C * sg⁻¹ * C)⁻¹ *ᵥ (ξ - (C * sg⁻¹) *ᵥ m) = ξ ⬝ᵥ F *ᵥ ξ + (G *ᵥ ξ - m) ⬝ᵥ W⁻¹ *ᵥ (G *ᵥ ξ - m) - m ⬝ᵥ sg⁻¹ *ᵥ m := by
  have hWit : (W⁻¹)ᵀ = W⁻¹ := by rw [transpose_nonsing_inv, hWt]
  have hsit : (sg⁻¹)ᵀ = sg⁻¹ := by rw [transpose_nonsing_inv, hst]
  have hAt : (F + G * W⁻¹ * G)ᵀ = F + G * W⁻¹ * G := by
    rw [transpose_add, transpose_mul, transpose_mul, hFt, hGt, hWit, Matrix.mul_assoc]
  rw [scale_inv hEF hC hC' hW hsg hs]
  have e1 : (F + G * W⁻¹ * G) *ᵥ ((C * sg⁻¹) *ᵥ m) = G *ᵥ (W⁻¹ *ᵥ m) := by
    rw [Matrix.mulVec_mulVec, scale_mean hEF hC hW hsg hs, Matrix.mulVec_mulVec]
  have e2 : ((C * sg⁻¹) *ᵥ m) ⬝ᵥ G *ᵥ (W⁻¹ *ᵥ m) = m ⬝ᵥ W⁻¹ *ᵥ m - m ⬝ᵥ sg⁻¹ *ᵥ m := by
    have e3 : C * G = sg - W := by rw [hC', hs]; abel
    have e4 : sg⁻¹ * C * (G * W⁻¹) = W⁻¹ - sg⁻¹ := by
      rw [Matrix.mul_assoc, ← Matrix.mul_assoc C, e3, Matrix.sub_mul, mul_nonsing_inv _ hW, Matrix.mul_sub, ← Matrix.mul_assoc, nonsing_inv_mul _ hsg, Matrix.one_mul, Matrix.mul_one]
    rw [← Matrix.vecMul_transpose, transpose_mul, hCt, hsit, ← Matrix.dotProduct_mulVec, Matrix.mulVec_mulVec, Matrix.mulVec_mulVec, Matrix.mul_assoc (sg⁻¹ * C), e4, Matrix.sub_mulVec, dotProduct_sub]
  have e5 : ∀ x y : n → ℝ, x ⬝ᵥ G *ᵥ y = (G *ᵥ x) ⬝ᵥ y := fun x y => by rw [Matrix.dotProduct_mulVec, ← Matrix.mulVec_transpose, hGt]
  have e6 : ξ ⬝ᵥ (F + G * W⁻¹ * G) *ᵥ ξ = ξ ⬝ᵥ F *ᵥ ξ + (G *ᵥ ξ) ⬝ᵥ W⁻¹ *ᵥ (G *ᵥ ξ) := by
    rw [Matrix.add_mulVec, dotProduct_add, ← e5, Matrix.mulVec_mulVec, Matrix.mulVec_mulVec]
  have e7 : ((C * sg⁻¹) *ᵥ m) ⬝ᵥ (F + G * W⁻¹ * G) *ᵥ ξ = (G *ᵥ ξ) ⬝ᵥ W⁻¹ *ᵥ m := by rw [dot_symm hAt, e1, e5]
  rw [Matrix.mulVec_sub, dotProduct_sub, sub_dotProduct, sub_dotProduct, e6, e7, e1, e2, e5, Matrix.mulVec_sub, dotProduct_sub, sub_dotProduct, sub_dotProduct]
  linear_combination dot_symm hWit m (G *ᵥ ξ)

end scale

/-- quadratures of a coherent state in units of `√ħ` -/
theorem cohQuad_units (hbar : ℝ) (hh : 0 < hbar) (α : Fin N → ℂ) : cohQuad hbar α = Real.sqrt hbar • cohQuad 1 α := by
  funext p
  have : Real.sqrt (2 * hbar) = Real.sqrt hbar * Real.sqrt (2 * 1) := by rw [← Real.sqrt_mul hh.le]; congr 1; ring
  rcases p with p | p <;> simp only [cohQuad, Sum.elim_inl, Sum.elim_inr, Pi.smul_apply, smul_eq_mul, this] <;> ring

theorem cohQuad_norm (α : Fin N → ℂ) : cohQuad 1 α ⬝ᵥ cohQuad 1 α = 2 * ∑ k, Complex.normSq (α k) := by
  rw [dotProduct, Fintype.sum_sum_type, ← Finset.sum_add_distrib, Finset.mul_sum]
  refine Finset.sum_congr rfl fun k _ => ?_
  have h2 : Real.sqrt (2 * 1) * Real.sqrt (2 * 1) = 2 := by rw [Real.mul_self_sqrt (by norm_num)]; norm_num
  simp only [cohQuad, Sum.elim_inl, Sum.elim_inr, Complex.normSq_apply]
  linear_combination ((α k).re * (α k).re + (α k).im * (α k).im) * h2

theorem cohQuad_scale (G : Fin N → ℝ) (α : Fin N → ℂ) : cohQuad 1 (fun k => (G k : ℂ) * α k) = dd G *ᵥ cohQuad 1 α := by
  funext p
  rw [Matrix.mulVec_diagonal]
  rcases p with p | p <;> simp only [cohQuad, Sum.elim_inl, Sum.elim_inr, Complex.re_ofReal_mul, Complex.im_ofReal_mul] <;> ring

/-- the Husimi function in units of `ħ` -/
theorem husimi_units (mu : ℕ → ℝ) (cov : ℕ → ℕ → ℝ) (hbar : ℝ) (hh : 0 < hbar) (s : Matrix (Fin N ⊕ Fin N) (Fin N ⊕ Fin N) ℝ) (m : Fin N ⊕ Fin N → ℝ) (hcov : phase N N cov = hbar • s)
    (hmu : phaseVec N mu = Real.sqrt hbar • m) (α : Fin N → ℂ) :
    husimiFn N mu cov hbar α = Real.exp (-((cohQuad 1 α - m) ⬝ᵥ (s + (1 / 2 : ℝ) • 1)⁻¹ *ᵥ (cohQuad 1 α - m)) / 2) / Real.sqrt (s + (1 / 2 : ℝ) • 1).det := by
  have e1 : phase N N cov + (hbar / 2) • (1 : Matrix (Fin N ⊕ Fin N) (Fin N ⊕ Fin N) ℝ) = hbar • (s + (1 / 2 : ℝ) • 1) := by
    rw [hcov, smul_add, smul_smul]; congr 2; ring
  have e2 : cohQuad hbar α - phaseVec N mu = Real.sqrt hbar • (cohQuad 1 α - m) := by rw [cohQuad_units hbar hh, hmu, smul_sub]
  unfold husimiFn
  dsimp only
  rw [e1, e2, smul_smul, one_div_mul_cancel hh.ne', one_smul]
  congr 3
  have e3 : (hbar • (s + (1 / 2 : ℝ) • (1 : Matrix (Fin N ⊕ Fin N) (Fin N ⊕ Fin N) ℝ)))⁻¹ = hbar⁻¹ • (s + (1 / 2 : ℝ) • 1)⁻¹ := by
    by_cases hu : IsUnit (s + (1 / 2 : ℝ) • (1 : Matrix (Fin N ⊕ Fin N) (Fin N ⊕ Fin N) ℝ)).det
    · apply Matrix.inv_eq_left_inv
      rw [Matrix.smul_mul, Matrix.mul_smul, nonsing_inv_mul _ hu, smul_smul, inv_mul_cancel₀ hh.ne', one_smul]
    · rw [nonsing_inv_apply_not_isUnit _ hu, nonsing_inv_apply_not_isUnit, smul_zero]
      rw [det_smul, isUnit_iff_ne_zero]
      rw [isUnit_iff_ne_zero, not_not] at hu
      rw [hu, mul_zero, not_not]
  rw [e3, Matrix.smul_mulVec, Matrix.mulVec_smul, smul_dotProduct, dotProduct_smul, dotProduct_smul]
  have h2 := Real.mul_self_sqrt hh.le
  simp only [smul_eq_mul]
  have : Real.sqrt hbar * (hbar⁻¹ * (Real.sqrt hbar * ((cohQuad 1 α - m) ⬝ᵥ (s + (1 / 2 : ℝ) • 1)⁻¹ *ᵥ (cohQuad 1 α - m)))) =
    (hbar⁻¹ * (Real.sqrt hbar * Real.sqrt hbar)) * ((cohQuad 1 α - m) ⬝ᵥ (s + (1 / 2 : ℝ) • 1)⁻¹ *ᵥ (cohQuad 1 α - m)) := by ring
  rw [this, h2, inv_mul_cancel₀ hh.ne', one_mul]

/-- `√((d - 1/2) / (d + 1/2))` -/
noncomputable def gof (d : Fin N → ℝ) (k : Fin N) : ℝ := Real.sqrt (d k - 1 / 2) / Real.sqrt (d k + 1 / 2)

theorem sqrt_thermal {x : ℝ} (hx : 1 / 2 ≤ x) (j : ℕ) : Real.sqrt (thermalProb (x - 1 / 2) j) = 1 / Real.sqrt (x + 1 / 2) * (Real.sqrt (x - 1 / 2) / Real.sqrt (x + 1 / 2)) ^ j := by
  have h1 := Real.mul_self_sqrt (show 0 ≤ x + 1 / 2 by linarith)
  have h2 := Real.mul_self_sqrt (show 0 ≤ x - 1 / 2 by linarith)
  have h0 : Real.sqrt (x + 1 / 2) ≠ 0 := (Real.sqrt_pos.mpr (by linarith)).ne'
  have h3 : x + 1 / 2 ≠ 0 := by linarith
  rw [Real.sqrt_eq_iff_mul_self_eq (thermalProb_nonneg _ (by linarith) _) (by positivity)]
  have e : (1 / Real.sqrt (x + 1 / 2) * (Real.sqrt (x - 1 / 2) / Real.sqrt (x + 1 / 2)) ^ j) * (1 / Real.sqrt (x + 1 / 2) * (Real.sqrt (x - 1 / 2) / Real.sqrt (x + 1 / 2)) ^ j) =
      1 / (Real.sqrt (x + 1 / 2) * Real.sqrt (x + 1 / 2)) * ((Real.sqrt (x - 1 / 2) * Real.sqrt (x - 1 / 2)) / (Real.sqrt (x + 1 / 2) * Real.sqrt (x + 1 / 2))) ^ j := by
    rw [mul_mul_mul_comm, ← mul_pow, div_mul_div_comm, div_mul_div_comm, one_mul]
  rw [e, h1, h2, thermalProb, div_pow, pow_succ]
  have : x - 1 / 2 + 1 = x + 1 / 2 := by ring
  rw [this]
  field_simp

theorem sqrt_thermal_pi {d : Fin N → ℝ} (hd : ∀ k, 1 / 2 ≤ d k) (i : Fin N → ℕ) :
    Real.sqrt (∏ k, thermalProb (d k - 1 / 2) (i k)) = (∏ k, 1 / Real.sqrt (d k + 1 / 2)) * ∏ k, gof d k ^ i k := by
  rw [← Finset.prod_mul_distrib, Real.sqrt_eq_rpow, ← Real.finsetProd_rpow _ _ fun k _ => thermalProb_nonneg _ (by linarith [hd k]) _]
  refine Finset.prod_congr rfl fun k _ => ?_
  rw [← Real.sqrt_eq_rpow, sqrt_thermal (hd k)]; rfl

theorem cohAmp_scale (G : Fin N → ℝ) (α : Fin N → ℂ) (i : Fin N → ℕ) : cohAmp (fun k => (G k : ℂ) * α k) i = cohAmp α i * ((∏ k, G k ^ i k : ℝ) : ℂ) := by
  unfold cohAmp
  push_cast
  rw [← Finset.prod_mul_distrib]
  refine Finset.prod_congr rfl fun k _ => ?_
  rw [map_mul, Complex.conj_ofReal, mul_pow]; ring

/-- **C81** if the first state is thermal, `√ρ σ √ρ` is a multiple of a Gaussian state -/
theorem scaled_fock {d : Fin N → ℝ} (hd : ∀ k, 1 / 2 ≤ d k) (s : Matrix (Fin N ⊕ Fin N) (Fin N ⊕ Fin N) ℝ) (hs : Physical s 1) (hbar : ℝ) (hh : 0 < hbar) (mu mu' : ℕ → ℝ) (cov cov' : ℕ → ℕ → ℝ)
    (m : Fin N ⊕ Fin N → ℝ) (hcov : phase N N cov = hbar • s) (hmu : phaseVec N mu = Real.sqrt hbar • m) (hcov' : phase N N cov' = hbar • sM (dd d) (dd (cof d)) (dd d + s)⁻¹)
    (hmu' : phaseVec N mu' = Real.sqrt hbar • (dd (cof d) * (dd d + s)⁻¹) *ᵥ m) (σ : (Fin N → ℕ) → (Fin N → ℕ) → ℂ) (hσ : IsFockMatrix N mu cov hbar σ) :
    IsFockMatrix N mu' cov' hbar fun i j => (Real.sqrt (∏ k, thermalProb (d k - 1 / 2) (i k)) : ℂ) * σ i j * (Real.sqrt (∏ k, thermalProb (d k - 1 / 2) (j k)) : ℂ) /
      ((Real.exp (-(1 / 2) * (m ⬝ᵥ (dd d + s)⁻¹ *ᵥ m)) / Real.sqrt (dd d + s).det : ℝ) : ℂ) := by
  have hpd : (dd d + s).PosDef := by
    refine PosDef.add_posSemidef (PosDef.diagonal fun p => ?_) (physical_posDef s 1 one_pos hs).posSemidef
    rcases p with p | p <;> exact lt_of_lt_of_le (by norm_num) (hd p)
  have hWpd : (s + (1 / 2 : ℝ) • (1 : Matrix (Fin N ⊕ Fin N) (Fin N ⊕ Fin N) ℝ)).PosDef := (physical_posDef s 1 one_pos hs).add_posSemidef (PosSemidef.one.smul (by norm_num))
  have r1 : ∀ k, Real.sqrt (d k + 1 / 2) * Real.sqrt (d k + 1 / 2) = d k + 1 / 2 := fun k => Real.mul_self_sqrt (by linarith [hd k])
  have r2 : ∀ k, Real.sqrt (d k - 1 / 2) * Real.sqrt (d k - 1 / 2) = d k - 1 / 2 := fun k => Real.mul_self_sqrt (by linarith [hd k])
  have r0 : ∀ k, Real.sqrt (d k + 1 / 2) ≠ 0 := fun k => (Real.sqrt_pos.mpr (by linarith [hd k])).ne'
  have hd0 : ∀ k, d k + 1 / 2 ≠ 0 := fun k => by linarith [hd k]
  have hcg : ∀ k, cof d k = (d k + 1 / 2) * gof d k := fun k => by
    have : (d k + 1 / 2) * gof d k = Real.sqrt (d k + 1 / 2) * Real.sqrt (d k + 1 / 2) * gof d k := by rw [r1]
    rw [this, cof, gof]
    have := r0 k
    field_simp
  have hgg : ∀ k, gof d k * (d k + 1 / 2) * gof d k = d k - 1 / 2 := fun k => by
    have e1 : gof d k * (d k + 1 / 2) * gof d k = gof d k * (Real.sqrt (d k + 1 / 2) * Real.sqrt (d k + 1 / 2)) * gof d k := by rw [r1]
    have e2 : ∀ a b : ℝ, a ≠ 0 → b / a * (a * a) * (b / a) = b * b := fun a b ha => by field_simp
    rw [e1, gof, e2 _ _ (r0 k), r2]
  have hEF : dd (fun k => 1 / (d k + 1 / 2)) * dd (fun k => d k + 1 / 2) = 1 := by
    rw [dd_mul, ← dd_one]; exact dd_congr fun k => one_div_mul_cancel (hd0 k)
  have hC : dd (cof d) = dd (fun k => d k + 1 / 2) * dd (gof d) := by rw [dd_mul]; exact dd_congr hcg
  have hC' : dd (cof d) = dd (gof d) * dd (fun k => d k + 1 / 2) := by rw [dd_mul]; exact dd_congr fun k => by rw [hcg, mul_comm]
  have hhalf : (1 / 2 : ℝ) • (1 : Matrix (Fin N ⊕ Fin N) (Fin N ⊕ Fin N) ℝ) = dd fun _ => 1 / 2 := by rw [← dd_one, dd_smul]; exact dd_congr fun k => by ring
  have hsg : dd d + s = s + (1 / 2 : ℝ) • 1 + dd (gof d) * dd (fun k => d k + 1 / 2) * dd (gof d) := by
    rw [dd_mul, dd_mul, hhalf, add_assoc, dd_add, add_comm]
    congr 1
    exact dd_congr fun k => by rw [hgg]; ring
  have hsM : sM (dd d) (dd (cof d)) (dd d + s)⁻¹ + (1 / 2 : ℝ) • 1 = dd (fun k => d k + 1 / 2) - dd (cof d) * (dd d + s)⁻¹ * dd (cof d) := by
    rw [sM, hhalf, ← dd_add]; abel
  have hst : (dd d + s)ᵀ = dd d + s := by rw [transpose_add, dd_tr, hs.1]
  have hWt : (s + (1 / 2 : ℝ) • (1 : Matrix (Fin N ⊕ Fin N) (Fin N ⊕ Fin N) ℝ))ᵀ = s + (1 / 2 : ℝ) • 1 := by rw [transpose_add, hs.1, transpose_smul, transpose_one]
  have hu : IsUnit (dd d + s).det := isUnit_iff_ne_zero.mpr hpd.det_pos.ne'
  have hWu : IsUnit (s + (1 / 2 : ℝ) • (1 : Matrix (Fin N ⊕ Fin N) (Fin N ⊕ Fin N) ℝ)).det := isUnit_iff_ne_zero.mpr hWpd.det_pos.ne'
  intro α
  have h := hσ fun k => (gof d k : ℂ) * α k
  set P0 : ℝ := ∏ k, 1 / Real.sqrt (d k + 1 / 2) with hP0
  set c : ℝ := Real.exp (-(1 / 2) * (m ⬝ᵥ (dd d + s)⁻¹ *ᵥ m)) / Real.sqrt (dd d + s).det with hc
  have h2 := h.mul_left ((P0 * P0 / c : ℝ) : ℂ)
  have hval : P0 * P0 / c * (Real.exp (∑ k, Complex.normSq ((gof d k : ℂ) * α k)) * husimiFn N mu cov hbar fun k => (gof d k : ℂ) * α k) =
      Real.exp (∑ k, Complex.normSq (α k)) * husimiFn N mu' cov' hbar α := by
    rw [husimi_units mu cov hbar hh s m hcov hmu, husimi_units mu' cov' hbar hh _ _ hcov' hmu', hsM, scale_quad hEF hC hC' hWu hu hsg (dd_tr _) (dd_tr _) (dd_tr _) hWt hst, cohQuad_scale]
    have hdet := scale_det hC hC' hu hsg
    have hE : (dd fun k => d k + 1 / 2).det = (∏ k, (d k + 1 / 2)) * ∏ k, (d k + 1 / 2) := dd_det _
    have hpos : 0 < ∏ k, (d k + 1 / 2) := Finset.prod_pos fun k _ => by linarith [hd k]
    have hPP : P0 * P0 = 1 / ∏ k, (d k + 1 / 2) := by
      rw [hP0, eq_div_iff hpos.ne', ← Finset.prod_mul_distrib, ← Finset.prod_mul_distrib]
      exact Finset.prod_eq_one fun k _ => by rw [div_mul_div_comm, r1, one_mul, one_div_mul_cancel (hd0 k)]
    have hgg2 : ∑ k, Complex.normSq ((gof d k : ℂ) * α k) = (dd (gof d) *ᵥ cohQuad 1 α) ⬝ᵥ (dd (gof d) *ᵥ cohQuad 1 α) / 2 := by
      rw [← cohQuad_scale, cohQuad_norm]; ring
    have hxx : ∑ k, Complex.normSq (α k) = (cohQuad 1 α ⬝ᵥ dd (fun k => 1 / (d k + 1 / 2)) *ᵥ cohQuad 1 α + (dd (gof d) *ᵥ cohQuad 1 α) ⬝ᵥ (dd (gof d) *ᵥ cohQuad 1 α)) / 2 := by
      have e1 : (dd (gof d) *ᵥ cohQuad 1 α) ⬝ᵥ (dd (gof d) *ᵥ cohQuad 1 α) = cohQuad 1 α ⬝ᵥ (dd (gof d) * dd (gof d)) *ᵥ cohQuad 1 α := by
        rw [← Matrix.mulVec_mulVec, Matrix.dotProduct_mulVec (cohQuad 1 α), ← Matrix.mulVec_transpose, dd_tr]
      rw [e1, ← dotProduct_add, ← Matrix.add_mulVec, dd_mul, dd_add]
      have e2 : dd (fun k => 1 / (d k + 1 / 2) + gof d k * gof d k) = 1 := by
        rw [← dd_one]
        refine dd_congr fun k => ?_
        have h3 := hgg k
        have h4 := hd0 k
        have h5 : gof d k * gof d k = (d k - 1 / 2) / (d k + 1 / 2) := by rw [eq_div_iff h4]; linear_combination h3
        rw [h5, ← add_div, div_eq_one_iff_eq h4]; ring
      rw [e2, Matrix.one_mulVec, cohQuad_norm]; ring
    rw [hgg2, hxx, hPP, hc]
    generalize (dd (gof d) *ᵥ cohQuad 1 α) ⬝ᵥ (dd (gof d) *ᵥ cohQuad 1 α) = gg
    generalize cohQuad 1 α ⬝ᵥ dd (fun k => 1 / (d k + 1 / 2)) *ᵥ cohQuad 1 α = ff
    generalize (dd (gof d) *ᵥ cohQuad 1 α - m) ⬝ᵥ (s + (1 / 2 : ℝ) • 1)⁻¹ *ᵥ (dd (gof d) *ᵥ cohQuad 1 α - m) = qq
    generalize m ⬝ᵥ (dd d + s)⁻¹ *ᵥ m = mm
    generalize (dd (fun k => d k + 1 / 2) - dd (cof d) * (dd d + s)⁻¹ * dd (cof d)).det = dW'' at hdet ⊢
    rw [hE] at hdet
    generalize ∏ k, (d k + 1 / 2) = e0 at hdet hpos ⊢
    have p1 := hpd.det_pos
    have p2 := hWpd.det_pos
    generalize (dd d + s).det = ds at hdet p1 ⊢
    generalize (s + (1 / 2 : ℝ) • (1 : Matrix (Fin N ⊕ Fin N) (Fin N ⊕ Fin N) ℝ)).det = dW at hdet p2 ⊢
    have p3 : 0 < dW'' := by
      by_contra hcon
      push Not at hcon
      have : 0 < e0 * e0 * dW := by positivity
      nlinarith
    have hroot : Real.sqrt dW'' * Real.sqrt ds = e0 * Real.sqrt dW := by
      rw [← Real.sqrt_mul p3.le, hdet, Real.sqrt_mul (by positivity), Real.sqrt_mul_self hpos.le]
    have q1 := Real.sqrt_pos.mpr p1
    have q2 := Real.sqrt_pos.mpr p2
    have q3 := Real.sqrt_pos.mpr p3
    generalize Real.sqrt dW'' = a1 at hroot q3 ⊢
    generalize Real.sqrt ds = a2 at hroot q1 ⊢
    generalize Real.sqrt dW = a3 at hroot q2 ⊢
    have hex : Real.exp ((ff + gg) / 2) * (Real.exp (-(ff + qq - mm) / 2)) * Real.exp (-(1 / 2) * mm) = Real.exp (gg / 2) * Real.exp (-qq / 2) := by
      rw [← Real.exp_add, ← Real.exp_add, ← Real.exp_add]; congr 1; ring
    have e5 := (Real.exp_pos (-(1 / 2) * mm)).ne'
    generalize Real.exp ((ff + gg) / 2) = x1 at hex ⊢
    generalize Real.exp (-(ff + qq - mm) / 2) = x2 at hex ⊢
    generalize Real.exp (-(1 / 2) * mm) = x3 at hex e5 ⊢
    generalize Real.exp (gg / 2) = x4 at hex ⊢
    generalize Real.exp (-qq / 2) = x5 at hex ⊢
    field_simp
    linear_combination (-(a1 * a2)) * hex + (x1 * x2 * x3) * hroot
  rw [← Complex.ofReal_mul, hval] at h2
  refine h2.congr_fun fun x => ?_
  dsimp only
  rw [cohAmp_scale, cohAmp_scale, sqrt_thermal_pi hd, sqrt_thermal_pi hd, ← hP0, map_mul, Complex.conj_ofReal]
  push_cast
  ring

end Verif.Props
