/-
C79: Gaussian unitaries in the Fock basis: existence, uniqueness up to a phase, products, adjoints, and the image of the vacuum.
-/
import Verif.Props.FockTensor

set_option linter.unusedSectionVars false
set_option linter.unusedSimpArgs false

namespace Verif.Props
open Verif.Model Verif.Model.Symp Verif.Model.Conv Verif.Model.Fock Verif.Spec Verif.Lemmas Verif.Lemmas.Symp Verif.Lemmas.Heis Matrix

variable {l : ℕ} {S T : Matrix (Fin l ⊕ Fin l) (Fin l ⊕ Fin l) ℝ} {α β : Fin l → ℂ} {U V : (Fin l → ℕ) → (Fin l → ℕ) → ℂ}

/-- every symplectic matrix and displacement have a Gaussian unitary -/
theorem gaussianUnitary_exists (hS : S ∈ symplecticGroup (Fin l) ℝ) (α : Fin l → ℂ) : ∃ U, IsGaussianUnitary S α U := ⟨_, gaussU_correct hS α⟩

/-- the vacuum amplitude of a Gaussian unitary does not vanish -/
theorem gaussianUnitary_vacuum (hS : S ∈ symplecticGroup (Fin l) ℝ) (hU : IsGaussianUnitary S α U) : U 0 0 ≠ 0 := by
  intro h0
  have h := heis_prop (bogE_isUnit hS) hU.heisenberg (gaussU_correct hS α).heisenberg
  have hg : gaussU S α 0 0 ≠ 0 := by
    rw [gaussU_zero]
    refine div_ne_zero (Complex.exp_ne_zero _) ?_
    rw [Complex.ofReal_ne_zero]
    refine (Real.sqrt_pos.mpr (norm_pos_iff.mpr ?_)).ne'
    exact ((isUnit_iff_isUnit_det _).mp (bogE_isUnit hS)).ne_zero
  have hz : ∀ i j, U i j = 0 := fun i j => by
    have := h i j
    rw [h0, zero_mul] at this
    exact (mul_eq_zero.mp this).resolve_left hg
  have := hU.unitary.cols 0 0
  simp only [hz, mul_zero, if_true] at this
  exact one_ne_zero (this.unique hasSum_zero)

/-- two Gaussian unitaries with the same symplectic matrix and displacement differ by a phase; if their vacuum amplitudes agree, they are equal -/
theorem gaussianUnitary_unique (hS : S ∈ symplecticGroup (Fin l) ℝ) (hU : IsGaussianUnitary S α U) (hV : IsGaussianUnitary S α V) :
    (∃ z : ℂ, ‖z‖ = 1 ∧ ∀ i j, V i j = z * U i j) ∧ (U 0 0 = V 0 0 → U = V) := by
  have h0 := gaussianUnitary_vacuum hS hU
  have h := heis_prop (bogE_isUnit hS) hU.heisenberg hV.heisenberg
  have hz : ∀ i j, V i j = V 0 0 / U 0 0 * U i j := fun i j => by
    rw [div_mul_eq_mul_div, h i j, mul_div_cancel_left₀ _ h0]
  refine ⟨⟨V 0 0 / U 0 0, ?_, hz⟩, fun he => ?_⟩
  · have h1 := hV.unitary.cols 0 0
    have h2 := (hU.unitary.cols 0 0).mul_left ((starRingEnd ℂ) (V 0 0 / U 0 0) * (V 0 0 / U 0 0))
    have h3 : HasSum (fun i => (starRingEnd ℂ) (V i 0) * V i 0) ((starRingEnd ℂ) (V 0 0 / U 0 0) * (V 0 0 / U 0 0) * (if (0 : Fin l → ℕ) = 0 then 1 else 0)) := by
      refine h2.congr_fun fun i => ?_
      rw [hz i 0, map_mul]; ring
    have h4 := h1.unique h3
    simp only [if_true, mul_one] at h4
    rw [mul_comm, Complex.mul_conj, Complex.normSq_eq_norm_sq] at h4
    have h5 : (1 : ℝ) = ‖V 0 0 / U 0 0‖ ^ 2 := by exact_mod_cast h4
    nlinarith [norm_nonneg (V 0 0 / U 0 0)]
  · funext i j
    rw [hz i j, ← he, div_self h0, one_mul]

/-- the product of the Gaussian unitaries of `(S, α)` and `(T, β)` is that of `S T`, displaced by `α` and the image of `β` under `S`; the sums in the product converge -/
theorem gaussianUnitary_mul (hS : S ∈ symplecticGroup (Fin l) ℝ) (hU : IsGaussianUnitary S α U) (hV : IsGaussianUnitary T β V) :
    (∀ i j, Summable fun m => U i m * V m j) ∧
      IsGaussianUnitary (S * T) (fun k => (∑ m, (bogE S k m * β m + bogF S k m * (starRingEnd ℂ) (β m))) + α k) fun i j => ∑' m, U i m * V m j := by
  refine ⟨(mul_cols hU.unitary hV.unitary).1, ?_, mul_unitary hU.unitary hV.unitary⟩
  have h := heis_mul (symp_bog hS) hU.heisenberg hU.unitary hV.heisenberg hV.unitary
  have hm := bog_mul S T
  rw [hm.1, hm.2]
  have e : (fun k => (∑ m, (bogE S k m * β m + bogF S k m * (starRingEnd ℂ) (β m))) + α k) = bogE S *ᵥ β + bogF S *ᵥ (fun k => (starRingEnd ℂ) (β k)) + α := by
    funext k
    simp only [Pi.add_apply, Matrix.mulVec, dotProduct, Finset.sum_add_distrib]
  rw [e]
  exact h

/-- the adjoint is the Gaussian unitary of the inverse matrix -/
theorem gaussianUnitary_adjoint (hS : S ∈ symplecticGroup (Fin l) ℝ) (hU : IsGaussianUnitary S α U) :
    IsGaussianUnitary S⁻¹ (fun k => -∑ m, (bogE S⁻¹ k m * α m + bogF S⁻¹ k m * (starRingEnd ℂ) (α m))) fun i j => (starRingEnd ℂ) (U j i) := by
  have hi : S⁻¹ = -(J (Fin l) ℝ * Sᵀ * J (Fin l) ℝ) := Matrix.inv_eq_left_inv (symp_inv hS).1
  have h := heis_adjoint (symp_bog hS) hU.heisenberg
  refine ⟨?_, adjoint_unitary hU.unitary⟩
  rw [hi, bog_inv.1, bog_inv.2]
  have e : (fun k => -∑ m, ((bogE S)ᴴ k m * α m + (-(bogF S)ᵀ) k m * (starRingEnd ℂ) (α m))) =
      -((bogE S)ᴴ *ᵥ α - (bogF S)ᵀ *ᵥ fun k => (starRingEnd ℂ) (α k)) := by
    funext k
    simp only [Pi.neg_apply, Pi.sub_apply, Matrix.mulVec, dotProduct, Finset.sum_add_distrib, Matrix.neg_apply, neg_mul, Finset.sum_neg_distrib, sub_eq_add_neg]
    rfl
  rw [e]
  exact h

theorem gaussU_col (hS : S ∈ symplecticGroup (Fin l) ℝ) (α : Fin l → ℂ) (n : Fin l → ℕ) : gaussU S α n 0 = stAmp S α n := by
  symm
  have hb := symp_bog hS
  refine (fockAmp_unique (uVac (bogE S) (bogF S) α) (bogF S * (cj (bogE S))⁻¹) (M_symm hb) (α - (bogF S * (cj (bogE S))⁻¹) *ᵥ star α) (fun n => gaussU S α n 0) (gaussU_zero S α) ?_ n).symm
  intro i k
  have := pair_rec (c := uVac (bogE S) (bogF S) α) (uR_symm hb) (y := uY (bogE S) (bogF S) α) i 0 (.inl k)
  rw [pairN_add_inl] at this
  simp only [Sum.elim_inl, Pi.zero_apply, root_zero, zero_mul, mul_zero, Finset.sum_const_zero, add_zero] at this
  exact this

/-- **C79** the image of the vacuum under the Gaussian unitary of `(S, α)` is the pure Gaussian state with covariance matrix `(ħ/2) S Sᵀ` and mean `√(2ħ) (Re α, Im α)`. -/
theorem gaussianUnitary_pure (hS : S ∈ symplecticGroup (Fin l) ℝ) (hU : IsGaussianUnitary S α U) (hbar : ℝ) (hh : 0 < hbar) (mu : ℕ → ℝ) (cov : ℕ → ℕ → ℝ)
    (hcov : phase l l cov = (hbar / 2) • (S * Sᵀ)) (hmu : ∀ k : Fin l, mu k = Real.sqrt (2 * hbar) * (α k).re ∧ mu (l + k) = Real.sqrt (2 * hbar) * (α k).im) :
    IsFockMatrix l mu cov hbar fun i j => U i 0 * (starRingEnd ℂ) (U j 0) := by
  have hα : ∀ k : Fin l, complexToReal l mu hbar k = α k := by
    intro k
    rw [(complexToReal_entries l mu hbar k k.2).1, amp, (hmu k).1, (hmu k).2]
    have hs : ((Real.sqrt (2 * hbar) : ℝ) : ℂ) ≠ 0 := Complex.ofReal_ne_zero.mpr (Real.sqrt_pos.mpr (by linarith)).ne'
    rw [div_eq_iff hs]
    apply Complex.ext <;> simp <;> ring
  have h := stAmp_fock hh hS hcov mu α hα
  obtain ⟨⟨z, hz, hzU⟩, -⟩ := gaussianUnitary_unique hS (gaussU_correct hS α) hU
  have e : (fun i j => U i 0 * (starRingEnd ℂ) (U j 0)) = fun i j => stAmp S α i * (starRingEnd ℂ) (stAmp S α j) := by
    funext i j
    rw [hzU, hzU, gaussU_col hS, gaussU_col hS, map_mul]
    have : z * (starRingEnd ℂ) z = 1 := by rw [Complex.mul_conj, Complex.normSq_eq_norm_sq, hz]; simp
    linear_combination stAmp S α i * (starRingEnd ℂ) (stAmp S α j) * this
  rw [e]
  exact h

end Verif.Props
