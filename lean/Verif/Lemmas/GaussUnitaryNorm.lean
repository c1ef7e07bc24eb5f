/-
The Gaussian unitary is unitary.
-/
import Verif.Lemmas.Choi
import Verif.Props.Coherent
import Mathlib.Analysis.SpecificLimits.Normed

set_option linter.unusedSectionVars false
set_option linter.unusedSimpArgs false

namespace Verif.Lemmas.Heis
open Verif.Spec Verif.Lemmas Matrix Verif.Props Verif.Lemmas.Symp

noncomputable section

variable {l : ℕ}

/-- pairs of occupation numbers as occupation numbers of twice as many modes -/
def pairEquiv (l : ℕ) : (Fin l → ℕ) × (Fin l → ℕ) ≃ (Fin (2 * l) → ℕ) where
  toFun p := pairN p.1 p.2
  invFun n := (fun k => n (quadEquiv l (.inl k)), fun k => n (quadEquiv l (.inr k)))
  left_inv p := by simp [pairN_inl, pairN_inr]
  right_inv n := (pairN_ext (fun _ => rfl) fun _ => rfl).symm

/-- multidimensional geometric series -/
theorem geom_pi (n : ℕ) (q : ℝ) (h0 : 0 ≤ q) (h1 : q < 1) : HasSum (fun j : Fin n → ℕ => q ^ (∑ k, j k)) ((1 - q)⁻¹ ^ n) := by
  have hg : HasSum (fun k : ℕ => (q : ℂ) ^ k) (1 - (q : ℂ))⁻¹ := hasSum_geometric_of_norm_lt_one (by rwa [Complex.norm_real, Real.norm_of_nonneg h0])
  have h := hasSum_pi_prod (ι := Fin n) (f := fun _ k => (q : ℂ) ^ k) (a := fun _ => (1 - (q : ℂ))⁻¹) fun _ => hg
  have h2 : HasSum (fun j : Fin n → ℕ => ((q ^ (∑ k, j k) : ℝ) : ℂ)) (((1 - q)⁻¹ ^ n : ℝ) : ℂ) := by
    have e : (((1 - q)⁻¹ ^ n : ℝ) : ℂ) = ∏ _k : Fin n, (1 - (q : ℂ))⁻¹ := by
      rw [Finset.prod_const, Finset.card_univ, Fintype.card_fin]; push_cast; rfl
    rw [e]
    refine h.congr_fun fun j => ?_
    rw [Finset.prod_pow_eq_pow_sum]; push_cast; rfl
  exact Complex.hasSum_ofReal.mp h2

variable {S : Matrix (Fin l ⊕ Fin l) (Fin l ⊕ Fin l) ℝ}

theorem choi_hasSum (hS : S ∈ symplecticGroup (Fin l) ℝ) (r : ℝ) (α : Fin l → ℂ) :
    HasSum (fun p : (Fin l → ℕ) × (Fin l → ℕ) => (Real.tanh r ^ 2) ^ (∑ k, p.2 k) / (Real.cosh r ^ 2) ^ l * ‖gaussU S α p.1 p.2‖ ^ 2) 1 := by
  have h := stAmp_norm (choiS_symp hS r) (choiA α)
  rw [← (pairEquiv l).hasSum_iff] at h
  refine h.congr_fun fun p => ?_
  have hc := (Real.cosh_pos r).le
  simp only [Function.comp_apply, pairEquiv, Equiv.coe_fn_mk]
  have e1 : ∀ n : ℕ, (Real.tanh r ^ 2) ^ n = (|Real.tanh r| ^ n) ^ 2 := fun n => by rw [← sq_abs, ← pow_mul, ← pow_mul, mul_comm]
  have e2 : (Real.cosh r ^ 2) ^ l = (Real.cosh r ^ l) ^ 2 := by rw [← pow_mul, ← pow_mul, mul_comm]
  rw [choi_amp hS, norm_mul, norm_div, norm_pow, norm_pow, Complex.norm_real, Complex.norm_real, Real.norm_of_nonneg hc, mul_pow, div_pow, Real.norm_eq_abs, e1, e2]

theorem gaussU_summable (hS : S ∈ symplecticGroup (Fin l) ℝ) (α : Fin l → ℂ) (j : Fin l → ℕ) : Summable fun i => ‖gaussU S α i j‖ ^ 2 := by
  have h := (choi_hasSum hS 1 α).summable
  have h2 := h.comp_injective (i := fun i : Fin l → ℕ => (i, j)) fun a b e => congrArg Prod.fst e
  have ht : Real.tanh 1 ≠ 0 := by
    rw [Real.tanh_eq_sinh_div_cosh]
    exact div_ne_zero (Real.sinh_pos_iff.mpr one_pos).ne' (Real.cosh_pos 1).ne'
  have hc : (Real.tanh 1 ^ 2) ^ (∑ k, j k) / (Real.cosh 1 ^ 2) ^ l ≠ 0 := div_ne_zero (pow_ne_zero _ (pow_ne_zero _ ht)) (pow_ne_zero _ (pow_ne_zero _ (Real.cosh_pos 1).ne'))
  exact (summable_mul_left_iff hc).mp h2

theorem gaussU_col_norm (hS : S ∈ symplecticGroup (Fin l) ℝ) (α : Fin l → ℂ) (j : Fin l → ℕ) : ∑' i, ‖gaussU S α i j‖ ^ 2 = ∑' i, ‖gaussU S α i 0‖ ^ 2 := by
  have hs := gaussU_summable hS α
  have h := heis_gram (symp_bog hS) (gaussU_heis hS α) hs j j
  rw [if_pos rfl] at h
  have e : ∀ j, inner ℂ (toL2 (fun i => gaussU S α i j) (hs j)) (toL2 (fun i => gaussU S α i j) (hs j)) = ((∑' i, ‖gaussU S α i j‖ ^ 2 : ℝ) : ℂ) := by
    intro j
    have h1 := inner_toL2 _ _ (hs j) (hs j)
    have h2 : HasSum (fun i => (starRingEnd ℂ) (gaussU S α i j) * gaussU S α i j) ((∑' i, ‖gaussU S α i j‖ ^ 2 : ℝ) : ℂ) := by
      refine (Complex.hasSum_ofReal.mpr (hs j).hasSum).congr_fun fun i => ?_
      rw [Complex.ofReal_pow, ← Complex.conj_mul']
    exact h1.unique h2
  rw [e, e] at h
  exact_mod_cast h

theorem gaussU_norm (hS : S ∈ symplecticGroup (Fin l) ℝ) (α : Fin l → ℂ) : ∑' i, ‖gaussU S α i 0‖ ^ 2 = 1 := by
  have hs := gaussU_summable hS α
  have h := choi_hasSum hS 1 α
  rw [← (Equiv.prodComm _ _).hasSum_iff] at h
  have h2 := h.prod_fiberwise (g := fun j => (Real.tanh 1 ^ 2) ^ (∑ k, j k) / (Real.cosh 1 ^ 2) ^ l * ∑' i, ‖gaussU S α i 0‖ ^ 2) (fun j => by
    rw [← gaussU_col_norm hS α j]
    exact (hs j).hasSum.mul_left _)
  have hc := Real.cosh_pos 1
  have ht : 1 - Real.tanh 1 ^ 2 = 1 / Real.cosh 1 ^ 2 := by
    rw [Real.tanh_eq_sinh_div_cosh]
    have := Real.cosh_sq 1
    field_simp
    linarith
  have hlt : Real.tanh 1 ^ 2 < 1 := by
    have : 0 < 1 / Real.cosh 1 ^ 2 := by positivity
    linarith
  have hg := ((geom_pi l (Real.tanh 1 ^ 2) (by positivity) hlt).div_const ((Real.cosh 1 ^ 2) ^ l)).mul_right (∑' i, ‖gaussU S α i 0‖ ^ 2)
  have := hg.unique h2
  rw [ht, one_div, inv_inv, div_self (by positivity), one_mul] at this
  exact this

/-- **the Gaussian unitary** of a symplectic matrix and a displacement -/
theorem gaussU_correct (hS : S ∈ symplecticGroup (Fin l) ℝ) (α : Fin l → ℂ) : IsGaussianUnitary S α (gaussU S α) := by
  refine ⟨gaussU_heis hS α, ?_⟩
  have hb := symp_bog hS
  obtain ⟨-, -, hi⟩ := symp_inv hS
  have h' := gaussU_heis hi (-((bogE S)ᴴ *ᵥ α - (bogF S)ᵀ *ᵥ fun k => (starRingEnd ℂ) (α k)))
  have hs' := gaussU_summable hi (-((bogE S)ᴴ *ᵥ α - (bogF S)ᵀ *ᵥ fun k => (starRingEnd ℂ) (α k)))
  have hn' := gaussU_norm hi (-((bogE S)ᴴ *ᵥ α - (bogF S)ᵀ *ᵥ fun k => (starRingEnd ℂ) (α k)))
  rw [bog_inv.1, bog_inv.2] at h'
  exact heis_unitary hb (bog_isUnit hb) (gaussU_heis hS α) (gaussU_summable hS α) (gaussU_norm hS α) h' hs' hn'

end

end Verif.Lemmas.Heis
