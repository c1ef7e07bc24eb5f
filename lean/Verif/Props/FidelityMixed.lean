/-
C81: `fidelity` of states that are diagonal in the same basis, exceptions of `fidelity`.
-/
import Verif.Props.FidelityFock

set_option linter.unusedSectionVars false
set_option linter.unusedSimpArgs false

namespace Verif.Props
open Verif.Model Verif.Model.Symp Verif.Model.Conv Verif.Model.Dec Verif.Model.Fid Verif.Spec Verif.Lemmas Verif.Lemmas.Symp Verif.Lemmas.Heis Verif.Lemmas.FPar Matrix

variable {N : ℕ}

/-- the diagonal matrix with the same entry for both quadratures of a mode -/
abbrev dd (a : Fin N → ℝ) : Matrix (Fin N ⊕ Fin N) (Fin N ⊕ Fin N) ℝ := diagonal (Sum.elim a a)

theorem dd_J (a : Fin N → ℝ) : dd a * J (Fin N) ℝ = J (Fin N) ℝ * dd a := by
  ext p q
  rw [dd, diagonal_mul, mul_diagonal]
  rcases p with p | p <;> rcases q with q | q <;> simp [J, Matrix.one_apply] <;> split_ifs with h <;> simp [h]

theorem dd_mul (a b : Fin N → ℝ) : dd a * dd b = dd fun k => a k * b k := by
  rw [dd, dd, diagonal_mul_diagonal]
  congr 1
  funext p; rcases p with p | p <;> rfl

theorem dd_det (a : Fin N → ℝ) : (dd a).det = (∏ k, a k) * ∏ k, a k := by
  rw [dd, det_diagonal, Fintype.prod_sum_type]
  simp

theorem dd_one : dd (fun _ : Fin N => (1 : ℝ)) = 1 := by
  rw [dd, ← diagonal_one]
  congr 1
  funext p; rcases p with p | p <;> rfl

section
variable {S : Matrix (Fin N ⊕ Fin N) (Fin N ⊕ Fin N) ℝ} (hS : S ∈ symplecticGroup (Fin N) ℝ)
include hS

theorem symp_unit : IsUnit S.det := by rw [SymplecticGroup.det_eq_one hS]; exact isUnit_one

theorem symp_J_inv : J (Fin N) ℝ * (Sᵀ)⁻¹ * J (Fin N) ℝ = -S := by
  have hu : IsUnit Sᵀ.det := by rw [det_transpose]; exact symp_unit hS
  have h1 : S * J (Fin N) ℝ = J (Fin N) ℝ * (Sᵀ)⁻¹ := by
    rw [← Matrix.mul_one (S * J (Fin N) ℝ), ← mul_nonsing_inv _ hu, ← Matrix.mul_assoc, SymplecticGroup.mem_iff.mp hS]
  rw [← h1, Matrix.mul_assoc, J_squared]
  simp

theorem symp_J_tr : J (Fin N) ℝ * Sᵀ * J (Fin N) ℝ = -S⁻¹ := by
  have hu := symp_unit hS
  have h1 : J (Fin N) ℝ * Sᵀ = S⁻¹ * J (Fin N) ℝ := by
    rw [← SymplecticGroup.mem_iff.mp hS, ← Matrix.mul_assoc, ← Matrix.mul_assoc, nonsing_inv_mul _ hu, Matrix.one_mul, SymplecticGroup.mem_iff.mp hS]
  rw [h1, Matrix.mul_assoc, J_squared]
  simp

theorem symp_tr_J : Sᵀ * (J (Fin N) ℝ * S) = J (Fin N) ℝ := by
  rw [← Matrix.mul_assoc]; exact SymplecticGroup.mem_iff'.mp hS

/-- the sum of the covariance matrices -/
theorem comm_sum (a b : Fin N → ℝ) : (1 / 2 : ℝ) • (S * dd a * Sᵀ) + (1 / 2 : ℝ) • (S * dd b * Sᵀ) = S * dd (fun k => (a k + b k) / 2) * Sᵀ := by
  rw [← smul_add, ← Matrix.add_mul, ← Matrix.mul_add, ← Matrix.smul_mul, ← Matrix.mul_smul]
  congr 2
  ext p q
  simp only [dd, Matrix.smul_apply, Matrix.add_apply, diagonal_apply, smul_eq_mul]
  rcases p with p | p <;> rcases q with q | q <;> simp <;> split_ifs <;> ring

theorem comm_inv (a b : Fin N → ℝ) (hab : ∀ k, 0 < a k + b k) :
    ((1 / 2 : ℝ) • (S * dd a * Sᵀ) + (1 / 2 : ℝ) • (S * dd b * Sᵀ))⁻¹ = (Sᵀ)⁻¹ * dd (fun k => 2 / (a k + b k)) * S⁻¹ := by
  have hu := symp_unit hS
  have hut : IsUnit Sᵀ.det := by rw [det_transpose]; exact hu
  rw [comm_sum hS]
  apply Matrix.inv_eq_right_inv
  have e : dd (fun k => (a k + b k) / 2) * dd (fun k => 2 / (a k + b k)) = 1 := by
    rw [dd_mul, ← dd_one]
    congr 2 <;> funext k <;> have := (hab k).ne' <;> field_simp
  calc _ = S * (dd (fun k => (a k + b k) / 2) * (Sᵀ * (Sᵀ)⁻¹) * dd (fun k => 2 / (a k + b k))) * S⁻¹ := by simp only [Matrix.mul_assoc]
    _ = 1 := by rw [mul_nonsing_inv _ hut, Matrix.mul_one, e, Matrix.mul_one, mul_nonsing_inv _ hu]

theorem comm_vaux (a b : Fin N → ℝ) (hab : ∀ k, 0 < a k + b k) :
    vauxM ((1 / 2 : ℝ) • (S * dd a * Sᵀ)) ((1 / 2 : ℝ) • (S * dd b * Sᵀ)) = (1 / 2 : ℝ) • (S * dd (fun k => (1 + a k * b k) / (a k + b k)) * Sᵀ) := by
  have hu := symp_unit hS
  have e1 : (1 / 2 : ℝ) • (S * dd b * Sᵀ) * -J (Fin N) ℝ * ((1 / 2 : ℝ) • (S * dd a * Sᵀ)) = (-(1 / 4) : ℝ) • (S * J (Fin N) ℝ * dd (fun k => b k * a k) * Sᵀ) := by
    calc _ = (-(1 / 4) : ℝ) • (S * (dd b * (Sᵀ * (J (Fin N) ℝ * S)) * dd a) * Sᵀ) := by
          simp only [Matrix.smul_mul, Matrix.mul_smul, Matrix.mul_neg, Matrix.neg_mul, smul_neg, smul_smul, Matrix.mul_assoc, neg_smul]
          norm_num
      _ = _ := by rw [symp_tr_J hS, dd_J, Matrix.mul_assoc (J (Fin N) ℝ), dd_mul, ← Matrix.mul_assoc]
  have e2 : (1 / 4 : ℝ) • (-J (Fin N) ℝ) = (-(1 / 4) : ℝ) • (S * J (Fin N) ℝ * dd (fun _ => 1) * Sᵀ) := by
    rw [dd_one, Matrix.mul_one, SymplecticGroup.mem_iff.mp hS, smul_neg, neg_smul]
  have e3 : (1 / 4 : ℝ) • (-J (Fin N) ℝ) + (1 / 2 : ℝ) • (S * dd b * Sᵀ) * -J (Fin N) ℝ * ((1 / 2 : ℝ) • (S * dd a * Sᵀ)) =
      (-(1 / 4) : ℝ) • (S * (J (Fin N) ℝ * dd (fun k => 1 + a k * b k)) * Sᵀ) := by
    rw [e1, e2, ← smul_add, ← Matrix.add_mul, ← Matrix.mul_add]
    congr 2
    rw [Matrix.mul_assoc]
    congr 2
    ext p q
    simp only [dd, Matrix.add_apply, diagonal_apply]
    rcases p with p | p <;> rcases q with q | q <;> simp <;> split_ifs <;> ring
  rw [vauxM, e3, omega_tr, comm_inv hS a b hab, ← dd_J]
  calc J (Fin N) ℝ * ((Sᵀ)⁻¹ * dd (fun k => 2 / (a k + b k)) * S⁻¹) * ((-(1 / 4) : ℝ) • (S * (dd (fun k => 1 + a k * b k) * J (Fin N) ℝ) * Sᵀ))
      = (-(1 / 4) : ℝ) • (J (Fin N) ℝ * (Sᵀ)⁻¹ * (dd (fun k => 2 / (a k + b k)) * (S⁻¹ * S) * dd (fun k => 1 + a k * b k) * J (Fin N) ℝ) * Sᵀ) := by
        rw [Matrix.mul_smul]
        simp only [Matrix.mul_assoc]
    _ = (-(1 / 4) : ℝ) • (J (Fin N) ℝ * (Sᵀ)⁻¹ * J (Fin N) ℝ * dd (fun k => 2 / (a k + b k) * (1 + a k * b k)) * Sᵀ) := by
        rw [nonsing_inv_mul _ hu, Matrix.mul_one, dd_mul, dd_J, ← Matrix.mul_assoc]
    _ = _ := by
        rw [symp_J_inv hS, Matrix.neg_mul, Matrix.neg_mul, smul_neg, neg_smul, neg_neg]
        have : dd (fun k => 2 / (a k + b k) * (1 + a k * b k)) = (2 : ℝ) • dd fun k => (1 + a k * b k) / (a k + b k) := by
          ext p q
          simp only [dd, Matrix.smul_apply, diagonal_apply, smul_eq_mul]
          rcases p with p | p <;> rcases q with q | q <;> simp <;> split_ifs <;> ring
        rw [this, Matrix.mul_smul, Matrix.smul_mul, smul_smul]
        norm_num

theorem comm_sq (g : Fin N → ℝ) :
    (1 / 2 : ℝ) • (S * dd g * Sᵀ) * -J (Fin N) ℝ * ((1 / 2 : ℝ) • (S * dd g * Sᵀ)) * -J (Fin N) ℝ = S * dd (fun k => -(g k * g k) / 4) * S⁻¹ := by
  calc _ = (1 / 4 : ℝ) • (S * (dd g * (Sᵀ * (J (Fin N) ℝ * S)) * dd g) * Sᵀ * J (Fin N) ℝ) := by
        simp only [Matrix.smul_mul, Matrix.mul_smul, Matrix.mul_neg, Matrix.neg_mul, smul_neg, smul_smul, Matrix.mul_assoc, neg_neg]
        norm_num
    _ = (1 / 4 : ℝ) • (S * dd (fun k => g k * g k) * (J (Fin N) ℝ * Sᵀ * J (Fin N) ℝ)) := by
        rw [symp_tr_J hS, Matrix.mul_assoc (dd g), ← dd_J, ← Matrix.mul_assoc (dd g), dd_mul]
        simp only [Matrix.mul_assoc]
    _ = _ := by
        rw [symp_J_tr hS, Matrix.mul_neg, smul_neg, ← Matrix.smul_mul, ← Matrix.mul_smul, ← Matrix.neg_mul, ← Matrix.mul_neg]
        congr 2
        ext p q
        simp only [dd, Matrix.neg_apply, Matrix.smul_apply, diagonal_apply, smul_eq_mul]
        rcases p with p | p <;> rcases q with q | q <;> simp <;> split_ifs <;> ring

theorem comm_arg (g : Fin N → ℝ) (hg : ∀ k, g k ≠ 0) : 1 + (1 / 4 : ℝ) • (S * dd (fun k => -(g k * g k) / 4) * S⁻¹)⁻¹ = S * dd (fun k => 1 - 1 / (g k * g k)) * S⁻¹ := by
  have hu := symp_unit hS
  have e1 : (S * dd (fun k => -(g k * g k) / 4) * S⁻¹)⁻¹ = S * dd (fun k => -4 / (g k * g k)) * S⁻¹ := by
    apply Matrix.inv_eq_right_inv
    calc _ = S * (dd (fun k => -(g k * g k) / 4) * (S⁻¹ * S) * dd (fun k => -4 / (g k * g k))) * S⁻¹ := by simp only [Matrix.mul_assoc]
      _ = 1 := by
        rw [nonsing_inv_mul _ hu, Matrix.mul_one, dd_mul]
        have : (fun k => -(g k * g k) / 4 * (-4 / (g k * g k))) = fun _ => (1 : ℝ) := by
          funext k
          have := hg k
          field_simp
        rw [this, dd_one, Matrix.mul_one, mul_nonsing_inv _ hu]
  have e0 : (1 : Matrix (Fin N ⊕ Fin N) (Fin N ⊕ Fin N) ℝ) = S * dd (fun _ => 1) * S⁻¹ := by rw [dd_one, Matrix.mul_one, mul_nonsing_inv _ hu]
  rw [e1, ← Matrix.smul_mul, ← Matrix.mul_smul]
  conv_lhs => rw [e0]
  rw [← Matrix.add_mul, ← Matrix.mul_add]
  congr 2
  ext p q
  simp only [dd, Matrix.add_apply, Matrix.smul_apply, diagonal_apply, smul_eq_mul]
  rcases p with p | p <;> rcases q with q | q <;> simp <;> split_ifs <;> ring

end

/-- the square root of the overlap of thermal states with symplectic eigenvalues `a` and `b` -/
noncomputable def thermalOverlap (a b : ℝ) : ℝ := 2 / (Real.sqrt ((a + 1) * (b + 1)) - Real.sqrt ((a - 1) * (b - 1)))

theorem thermalOverlap_den {a b : ℝ} (ha : 1 ≤ a) (hb : 1 ≤ b) : 0 < Real.sqrt ((a + 1) * (b + 1)) - Real.sqrt ((a - 1) * (b - 1)) :=
  sub_pos.mpr (Real.sqrt_lt_sqrt (mul_nonneg (by linarith) (by linarith)) (by nlinarith))

/-- the number computed by the code for one mode -/
theorem thermalOverlap_sq {a b : ℝ} (ha : 1 ≤ a) (hb : 1 ≤ b) :
    2 / (a + b) * ((Real.sqrt (1 - 1 / ((1 + a * b) / (a + b) * ((1 + a * b) / (a + b)))) + 1) * ((1 + a * b) / (a + b))) = thermalOverlap a b ^ 2 := by
  have hab : 0 < a + b := by linarith
  have h1 : 0 < 1 + a * b := by nlinarith
  have hden := thermalOverlap_den ha hb
  have hx : 0 ≤ (a + 1) * (b + 1) := by nlinarith
  have hy : 0 ≤ (a - 1) * (b - 1) := mul_nonneg (by linarith) (by linarith)
  have e1 : 1 - 1 / ((1 + a * b) / (a + b) * ((1 + a * b) / (a + b))) = ((a + 1) * (b + 1)) * ((a - 1) * (b - 1)) / (1 + a * b) ^ 2 := by
    field_simp
    ring
  have e2 : Real.sqrt (1 - 1 / ((1 + a * b) / (a + b) * ((1 + a * b) / (a + b)))) = Real.sqrt ((a + 1) * (b + 1)) * Real.sqrt ((a - 1) * (b - 1)) / (1 + a * b) := by
    rw [e1, Real.sqrt_div' _ (by positivity), Real.sqrt_sq h1.le, Real.sqrt_mul hx]
  rw [e2, thermalOverlap]
  have sx := Real.sq_sqrt hx
  have sy := Real.sq_sqrt hy
  generalize Real.sqrt ((a + 1) * (b + 1)) = X at *
  generalize Real.sqrt ((a - 1) * (b - 1)) = Y at *
  have hs : (X - Y) * (X + Y) = 2 * (a + b) := by nlinarith
  have hXY : X + Y = 2 * (a + b) / (X - Y) := by rw [eq_div_iff hden.ne', ← hs]; ring
  have h4 : (X * Y + (1 + a * b)) = (X + Y) ^ 2 / 2 := by nlinarith
  have e5 : 2 / (a + b) * ((X * Y / (1 + a * b) + 1) * ((1 + a * b) / (a + b))) = 2 * (X * Y + (1 + a * b)) / (a + b) ^ 2 := by field_simp
  rw [e5, h4, hXY]
  field_simp

theorem thermalOverlap_hasSum {a b : ℝ} (ha : 1 ≤ a) (hb : 1 ≤ b) :
    HasSum (fun k => Real.sqrt (thermalProb ((a - 1) / 2) k * thermalProb ((b - 1) / 2) k)) (thermalOverlap a b) := by
  have hden := thermalOverlap_den ha hb
  have hx : 0 < (a + 1) * (b + 1) := by nlinarith
  have hy : 0 ≤ (a - 1) * (b - 1) := mul_nonneg (by linarith) (by linarith)
  have hX : 0 < Real.sqrt ((a + 1) * (b + 1)) := Real.sqrt_pos.mpr hx
  have hlt : Real.sqrt ((a - 1) * (b - 1)) / Real.sqrt ((a + 1) * (b + 1)) < 1 := by rw [div_lt_one hX]; linarith
  have hg := (hasSum_geometric_of_lt_one (by positivity) hlt).mul_left (2 / Real.sqrt ((a + 1) * (b + 1)))
  have e : 2 / Real.sqrt ((a + 1) * (b + 1)) * (1 - Real.sqrt ((a - 1) * (b - 1)) / Real.sqrt ((a + 1) * (b + 1)))⁻¹ = thermalOverlap a b := by
    rw [thermalOverlap]
    generalize Real.sqrt ((a - 1) * (b - 1)) = Y at *
    generalize Real.sqrt ((a + 1) * (b + 1)) = X at *
    have h1 : 1 - Y / X ≠ 0 := by linarith
    have h2 := hden.ne'
    have h3 := hX.ne'
    field_simp
  rw [e] at hg
  refine hg.congr_fun fun k => ?_
  have h1 : thermalProb ((a - 1) / 2) k * thermalProb ((b - 1) / 2) k = (2 / Real.sqrt ((a + 1) * (b + 1)) * (Real.sqrt ((a - 1) * (b - 1)) / Real.sqrt ((a + 1) * (b + 1))) ^ k) ^ 2 := by
    have hp : ∀ u v : ℝ, (u / v) ^ k = u ^ k / v ^ k := fun u v => div_pow u v k
    have e3 : (2 / Real.sqrt ((a + 1) * (b + 1)) * (Real.sqrt ((a - 1) * (b - 1)) / Real.sqrt ((a + 1) * (b + 1))) ^ k) ^ 2 = 4 / ((a + 1) * (b + 1)) * (((a - 1) * (b - 1)) / ((a + 1) * (b + 1))) ^ k := by
      rw [mul_pow, div_pow, Real.sq_sqrt hx.le, ← pow_mul, mul_comm k 2, pow_mul, div_pow, Real.sq_sqrt hx.le, Real.sq_sqrt hy]
      norm_num
    rw [e3]
    unfold thermalProb
    have ha1 : (a - 1) / 2 + 1 = (a + 1) / 2 := by ring
    have hb1 : (b - 1) / 2 + 1 = (b + 1) / 2 := by ring
    rw [ha1, hb1, pow_succ, pow_succ, hp, hp, hp, hp, hp, mul_pow, mul_pow]
    have : (a + 1) ^ k ≠ 0 := pow_ne_zero _ (by linarith)
    have : (b + 1) ^ k ≠ 0 := pow_ne_zero _ (by linarith)
    have : (2 : ℝ) ^ k ≠ 0 := by positivity
    have : a + 1 ≠ 0 := by linarith
    have : b + 1 ≠ 0 := by linarith
    generalize (2 : ℝ) ^ k = w at *
    field_simp
    ring_nf
  rw [h1, Real.sqrt_sq (by positivity)]

theorem thermalOverlap_pi {a b : Fin N → ℝ} (ha : ∀ k, 1 ≤ a k) (hb : ∀ k, 1 ≤ b k) :
    HasSum (fun m : Fin N → ℕ => Real.sqrt ((∏ k, thermalProb ((a k - 1) / 2) (m k)) * ∏ k, thermalProb ((b k - 1) / 2) (m k))) (∏ k, thermalOverlap (a k) (b k)) := by
  have h2 := hasSum_pi_prod (ι := Fin N) (f := fun k m => ((Real.sqrt (thermalProb ((a k - 1) / 2) m * thermalProb ((b k - 1) / 2) m) : ℝ) : ℂ))
    (a := fun k => ((thermalOverlap (a k) (b k) : ℝ) : ℂ)) fun k => Complex.hasSum_ofReal.mpr (thermalOverlap_hasSum (ha k) (hb k))
  rw [← Complex.ofReal_prod] at h2
  have h3 : HasSum (fun m : Fin N → ℕ => ((∏ k, Real.sqrt (thermalProb ((a k - 1) / 2) (m k) * thermalProb ((b k - 1) / 2) (m k)) : ℝ) : ℂ)) ((∏ k, thermalOverlap (a k) (b k) : ℝ) : ℂ) :=
    h2.congr_fun fun m => by rw [Complex.ofReal_prod]
  refine (Complex.hasSum_ofReal.mp h3).congr_fun fun m => ?_
  rw [← Finset.prod_mul_distrib, Real.sqrt_eq_rpow, ← Real.finsetProd_rpow _ _ fun k _ => mul_nonneg (thermalProb_nonneg _ (by linarith [ha k]) _) (thermalProb_nonneg _ (by linarith [hb k]) _)]
  simp only [Real.sqrt_eq_rpow]

theorem fidelity_commuting_value {sqrtm : ℕ → RArr → RArr} (hs : SqrtmDiagContract sqrtm) (close : ℝ → ℝ → Bool) (hc : ∀ x, close x 0 = true → x = 0) (mu1 mu2 : ℕ → ℝ) (cov1 cov2 : RArr) (hbar : ℝ)
    (hh : 0 < hbar) (S : Matrix (Fin N ⊕ Fin N) (Fin N ⊕ Fin N) ℝ) (hS : S ∈ symplecticGroup (Fin N) ℝ) (a b : Fin N → ℝ) (ha : ∀ k, 1 ≤ a k) (hb : ∀ k, 1 ≤ b k)
    (h1 : phase N N cov1 = (hbar / 2) • (S * dd a * Sᵀ)) (h2 : phase N N cov2 = (hbar / 2) • (S * dd b * Sᵀ)) (hmu : phaseVec N mu1 = phaseVec N mu2) :
    fidelity sqrtm close (2 * N) mu1 (2 * N) (2 * N) cov1 (2 * N) mu2 (2 * N) (2 * N) cov2 hbar = .ok ((∏ k, thermalOverlap (a k) (b k)) ^ 2) := by
  have hab : ∀ k, 0 < a k + b k := fun k => by linarith [ha k, hb k]
  have hge : ∀ k, 1 ≤ (1 + a k * b k) / (a k + b k) := fun k => by
    rw [le_div_iff₀ (hab k)]
    nlinarith [mul_nonneg (sub_nonneg.mpr (ha k)) (sub_nonneg.mpr (hb k))]
  have hS1 := SymplecticGroup.det_eq_one hS
  have hu := symp_unit hS
  have hhalf : ∀ X : Matrix (Fin N ⊕ Fin N) (Fin N ⊕ Fin N) ℝ, (1 / hbar) • ((hbar / 2) • X) = (1 / 2 : ℝ) • X := fun X => by
    rw [smul_smul]; congr 1; field_simp
  have hr := fidelity_run hs close mu1 mu2 cov1 cov2 hbar ((1 / 2 : ℝ) • (S * dd a * Sᵀ)) ((1 / 2 : ℝ) • (S * dd b * Sᵀ)) ((1 / 2 : ℝ) • (S * dd (fun k => (1 + a k * b k) / (a k + b k)) * Sᵀ)) S
    (Sum.elim (fun k => 1 - 1 / ((1 + a k * b k) / (a k + b k) * ((1 + a k * b k) / (a k + b k)))) fun k => 1 - 1 / ((1 + a k * b k) / (a k + b k) * ((1 + a k * b k) / (a k + b k))))
    (by rw [h1, hhalf]) (by rw [h2, hhalf]) (by
      rw [comm_sum hS, det_mul, det_mul, det_transpose, hS1, one_mul, mul_one, dd_det]
      have : ∏ k, (a k + b k) / 2 ≠ 0 := Finset.prod_ne_zero_iff.mpr fun k _ => by have := hab k; positivity
      exact mul_ne_zero this this) (comm_vaux hS a b hab) (by
      rw [comm_sq hS, det_mul, det_mul, hS1, one_mul, dd_det, det_nonsing_inv, hS1, Ring.inverse_one, mul_one]
      have : ∏ k, -((1 + a k * b k) / (a k + b k) * ((1 + a k * b k) / (a k + b k))) / 4 ≠ 0 := Finset.prod_ne_zero_iff.mpr fun k _ => by
        have := hge k
        have h0 : (1 + a k * b k) / (a k + b k) ≠ 0 := by linarith
        exact div_ne_zero (neg_ne_zero.mpr (mul_ne_zero h0 h0)) (by norm_num)
      exact mul_ne_zero this this) hu (by
      have : ∀ k, 0 ≤ 1 - 1 / ((1 + a k * b k) / (a k + b k) * ((1 + a k * b k) / (a k + b k))) := fun k => by
        have h1 := hge k
        have : 1 ≤ (1 + a k * b k) / (a k + b k) * ((1 + a k * b k) / (a k + b k)) := by nlinarith
        rw [sub_nonneg, div_le_one (by linarith)]
        exact this
      intro p; rcases p with p | p <;> exact this p) (by
      rw [comm_sq hS, comm_arg hS _ fun k => by linarith [hge k]]) (.inl hc)
  rw [hr, hmu, sub_self]
  have hexp : Real.exp (-(1 / 2) * (((1 / Real.sqrt hbar) • (0 : Fin N ⊕ Fin N → ℝ)) ⬝ᵥ ((1 / 2 : ℝ) • (S * dd a * Sᵀ) + (1 / 2 : ℝ) • (S * dd b * Sᵀ))⁻¹ *ᵥ ((1 / Real.sqrt hbar) • 0))) = 1 := by
    simp
  rw [hexp, mul_one, comm_inv hS a b hab]
  congr 1
  have hd : (fun p : Fin N ⊕ Fin N => Real.sqrt (Sum.elim (fun k => 1 - 1 / ((1 + a k * b k) / (a k + b k) * ((1 + a k * b k) / (a k + b k))))
      (fun k => 1 - 1 / ((1 + a k * b k) / (a k + b k) * ((1 + a k * b k) / (a k + b k)))) p)) =
      Sum.elim (fun k => Real.sqrt (1 - 1 / ((1 + a k * b k) / (a k + b k) * ((1 + a k * b k) / (a k + b k))))) fun k => Real.sqrt (1 - 1 / ((1 + a k * b k) / (a k + b k) * ((1 + a k * b k) / (a k + b k)))) := by
    funext p; rcases p with p | p <;> rfl
  rw [hd]
  have e1 : S * diagonal (Sum.elim (fun k => Real.sqrt (1 - 1 / ((1 + a k * b k) / (a k + b k) * ((1 + a k * b k) / (a k + b k))))) fun k => Real.sqrt (1 - 1 / ((1 + a k * b k) / (a k + b k) * ((1 + a k * b k) / (a k + b k))))) * S⁻¹ + 1 =
      S * dd (fun k => Real.sqrt (1 - 1 / ((1 + a k * b k) / (a k + b k) * ((1 + a k * b k) / (a k + b k)))) + 1) * S⁻¹ := by
    have e0 : (1 : Matrix (Fin N ⊕ Fin N) (Fin N ⊕ Fin N) ℝ) = S * dd (fun _ => 1) * S⁻¹ := by rw [dd_one, Matrix.mul_one, mul_nonsing_inv _ hu]
    conv_lhs => rw [e0]
    rw [← Matrix.add_mul, ← Matrix.mul_add]
    congr 2
    ext p q
    simp only [dd, Matrix.add_apply, diagonal_apply]
    rcases p with p | p <;> rcases q with q | q <;> simp <;> split_ifs <;> simp
  rw [e1, Matrix.mul_smul, smul_smul]
  have e2 : (2 * (1 / 2) : ℝ) = 1 := by norm_num
  rw [e2, one_smul]
  have hdi : (S⁻¹).det = 1 := by rw [det_nonsing_inv, hS1, Ring.inverse_one]
  have hdit : ((Sᵀ)⁻¹).det = 1 := by rw [det_nonsing_inv, det_transpose, hS1, Ring.inverse_one]
  simp only [det_mul, hS1, hdi, hdit, det_transpose, one_mul, mul_one, dd_det]
  have e3 : ∏ k, thermalOverlap (a k) (b k) ^ 2 = (∏ k, 2 / (a k + b k)) * ((∏ k, (Real.sqrt (1 - 1 / ((1 + a k * b k) / (a k + b k) * ((1 + a k * b k) / (a k + b k)))) + 1)) * ∏ k, (1 + a k * b k) / (a k + b k)) := by
    rw [← Finset.prod_mul_distrib, ← Finset.prod_mul_distrib]
    exact Finset.prod_congr rfl fun k _ => (thermalOverlap_sq (ha k) (hb k)).symm
  rw [← Finset.prod_pow, e3]
  have hnn : 0 ≤ (∏ k, 2 / (a k + b k)) * ((∏ k, (Real.sqrt (1 - 1 / ((1 + a k * b k) / (a k + b k) * ((1 + a k * b k) / (a k + b k)))) + 1)) * ∏ k, (1 + a k * b k) / (a k + b k)) := by
    rw [← e3]
    exact Finset.prod_nonneg fun k _ => sq_nonneg _
  rw [← Real.sqrt_mul_self hnn]
  congr 1
  ring

/-- **C81** `fidelity` of two states with the same means, whose covariance matrices are brought to Williamson form by the same symplectic matrix: both density matrices are diagonal in
one orthonormal basis, and the value is the squared Bhattacharyya overlap `(∑ √(p q))²` of their eigenvalues. -/
theorem fidelity_commuting {sqrtm : ℕ → RArr → RArr} (hs : SqrtmDiagContract sqrtm) (close : ℝ → ℝ → Bool) (hc : ∀ x, close x 0 = true → x = 0) (mu : ℕ → ℝ) (cov1 cov2 : RArr) (hbar : ℝ)
    (hh : 0 < hbar) (S : Matrix (Fin N ⊕ Fin N) (Fin N ⊕ Fin N) ℝ) (hS : S ∈ symplecticGroup (Fin N) ℝ) (a b : Fin N → ℝ) (ha : ∀ k, 1 ≤ a k) (hb : ∀ k, 1 ≤ b k)
    (h1 : phase N N cov1 = (hbar / 2) • (S * diagonal (Sum.elim a a) * Sᵀ)) (h2 : phase N N cov2 = (hbar / 2) • (S * diagonal (Sum.elim b b) * Sᵀ))
    (ρ σ : (Fin N → ℕ) → (Fin N → ℕ) → ℂ) (hρ : IsFockMatrix N mu cov1 hbar ρ) (hσ : IsFockMatrix N mu cov2 hbar σ) :
    ∃ p q V s, IsSpectral ρ p V ∧ IsSpectral σ q V ∧ HasSum (fun m => Real.sqrt (p m * q m)) s ∧
      fidelity sqrtm close (2 * N) mu (2 * N) (2 * N) cov1 (2 * N) mu (2 * N) (2 * N) cov2 hbar = .ok (s ^ 2) := by
  obtain ⟨V, hV⟩ := gaussianUnitary_exists hS (fun k => complexToReal N mu hbar k)
  have han : ∀ k, 0 ≤ (a k - 1) / 2 := fun k => by linarith [ha k]
  have hbn : ∀ k, 0 ≤ (b k - 1) / 2 := fun k => by linarith [hb k]
  refine ⟨fun m => ∏ k, thermalProb ((a k - 1) / 2) (m k), fun m => ∏ k, thermalProb ((b k - 1) / 2) (m k), V, _, ?_, ?_, thermalOverlap_pi ha hb,
    fidelity_commuting_value hs close hc mu mu cov1 cov2 hbar hh S hS a b ha hb h1 h2 rfl⟩
  · exact ⟨hV.unitary, gaussian_thermal hS hV hbar hh a ha mu cov1 h1 (mean_amp hh fun _ => rfl) ρ hρ, fun m => Finset.prod_nonneg fun k _ => thermalProb_nonneg _ (han k) _, thermal_summable _ han⟩
  · exact ⟨hV.unitary, gaussian_thermal hS hV hbar hh b hb mu cov2 h2 (mean_amp hh fun _ => rfl) σ hσ, fun m => Finset.prod_nonneg fun k _ => thermalProb_nonneg _ (hbn k) _, thermal_summable _ hbn⟩

theorem thermalOverlap_self {a : ℝ} (ha : 1 ≤ a) : thermalOverlap a a = 1 := by
  unfold thermalOverlap
  rw [Real.sqrt_mul_self (by linarith), Real.sqrt_mul_self (by linarith)]
  norm_num

/-- **C81** `fidelity` of a state with itself is 1, for every physical state. -/
theorem fidelity_self {sqrtm : ℕ → RArr → RArr} (hs : SqrtmDiagContract sqrtm) (close : ℝ → ℝ → Bool) (hc : ∀ x, close x 0 = true → x = 0) (mu : ℕ → ℝ) (cov : RArr) (hbar : ℝ)
    (hh : 0 < hbar) (hph : Physical (phase N N cov) hbar) : fidelity sqrtm close (2 * N) mu (2 * N) (2 * N) cov (2 * N) mu (2 * N) (2 * N) cov hbar = .ok 1 := by
  obtain ⟨ν, ⟨-, T, hT, hTν⟩, hν⟩ := sympSpectrum_physical _ hbar hh hph
  have h1 : phase N N cov = (hbar / 2) • (T * dd ν * Tᵀ) := by
    rw [dd, ← hTν, smul_smul]
    have : hbar / 2 * (2 / hbar) = 1 := by field_simp
    rw [this, one_smul]
  rw [fidelity_commuting_value hs close hc mu mu cov cov hbar hh T hT ν ν hν hν h1 h1 rfl]
  congr 1
  rw [Finset.prod_congr rfl fun k _ => thermalOverlap_self (hν k)]
  simp

/-- **C81** covariance matrices and first means of incompatible shapes are rejected with `ValueError`. -/
theorem fidelity_raises (sqrtm : ℕ → RArr → RArr) (close : ℝ → ℝ → Bool) (l1 : ℕ) (mu1 : ℕ → ℝ) (n0 n1 : ℕ) (cov1 : RArr) (l2 : ℕ) (mu2 : ℕ → ℝ) (m0 m1 : ℕ) (cov2 : RArr) (hbar : ℝ)
    (h : ¬ (n0 = n1 ∧ n1 = m0 ∧ m0 = m1 ∧ m1 = l1)) : fidelity sqrtm close l1 mu1 n0 n1 cov1 l2 mu2 m0 m1 cov2 hbar = .error .valueError := by
  unfold fidelity
  rw [if_pos h]
  rfl

/-- **C81, negative** the shape of `mu2` is not checked: a vector of one mean is accepted by a call with covariance matrices of any number of modes, and used as the mean of every quadrature. -/
theorem fidelity_mu2_unchecked (sqrtm : ℕ → RArr → RArr) (close : ℝ → ℝ → Bool) (mu1 mu2 : ℕ → ℝ) (cov1 cov2 : RArr) (hbar : ℝ) :
    fidelity sqrtm close (2 * N) mu1 (2 * N) (2 * N) cov1 1 mu2 (2 * N) (2 * N) cov2 hbar = fidelity sqrtm close (2 * N) mu1 (2 * N) (2 * N) cov1 (2 * N) (fun _ => mu2 0) (2 * N) (2 * N) cov2 hbar := by
  unfold fidelity
  have hl : (2 * N = 1) = False := by simp
  simp only [hl, if_false, if_true, true_or, or_true, not_true, and_self]

/-- the hypotheses of `fidelity_self` hold for a displaced two-mode squeezed vacuum -/
example (sqrtm : ℕ → RArr → RArr) (hs : SqrtmDiagContract sqrtm) (close : ℝ → ℝ → Bool) (hc : ∀ x, close x 0 = true → x = 0) :
    fidelity sqrtm close 4 (fun _ => 1) 4 4 tmsExample 4 (fun _ => 1) 4 4 tmsExample 2 = .ok 1 :=
  fidelity_self (N := 2) hs close hc (fun _ => 1) tmsExample 2 (by norm_num) ((physical_iff_spectrum _ 2 (by norm_num) _ tmsExample_spec).mpr fun _ => by norm_num)

/-- the hypotheses of `fidelity_pure_pure` hold for displaced two-mode vacua -/
example (sqrtm : ℕ → RArr → RArr) (hs : SqrtmDiagContract sqrtm) (close : ℝ → ℝ → Bool) : ∃ (ψ φ : (Fin 2 → ℕ) → ℂ) (z : ℂ), HasSum (fun n => (starRingEnd ℂ) (ψ n) * φ n) z ∧
    IsFockMatrix 2 (fun _ => 1) (fun i j => if i = j then 1 else 0) 2 (fun i j => ψ i * (starRingEnd ℂ) (ψ j)) ∧
    fidelity sqrtm close 4 (fun _ => 1) 4 4 (fun i j => if i = j then 1 else 0) 4 (fun _ => 0) 4 4 (fun i j => if i = j then 1 else 0) 2 = .ok (‖z‖ ^ 2) := by
  have he : phase 2 2 (fun i j => if i = j then (1 : ℝ) else 0) = (1 : Matrix (Fin 2 ⊕ Fin 2) (Fin 2 ⊕ Fin 2) ℝ) := by
    ext p q
    have := (quad_injective 2).eq_iff (a := p) (b := q)
    simp only [phase, of_apply, Matrix.one_apply, this]
  obtain ⟨hph, hpure⟩ := symp_physical (N := 2) (hbar := 2) (by norm_num) (Submonoid.one_mem (symplecticGroup (Fin 2) ℝ)) (cov := fun i j => if i = j then (1 : ℝ) else 0) (by
    rw [he]; norm_num)
  obtain ⟨ψ, hψ⟩ := pure_vector_exists (fun _ => 1) _ 2 (by norm_num) hph hpure
  obtain ⟨φ, hφ⟩ := pure_vector_exists (fun _ => 0) _ 2 (by norm_num) hph hpure
  obtain ⟨z, hz, hf⟩ := fidelity_pure_pure hs close _ _ _ _ 2 (by norm_num) hph hph hpure ψ φ hψ hφ
  exact ⟨ψ, φ, z, hz, hψ, hf⟩

end Verif.Props
