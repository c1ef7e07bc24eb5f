/-
C82: the gates of thewalrus/fock_gradients.py are the Gaussian unitaries of the symplectic matrices of thewalrus/symplectic.py, and agree with `fock_tensor`.
-/
import Verif.Props.FockTensor
import Verif.Props.FockUnitary
import Verif.Props.GaussianUnitary

set_option linter.unusedSectionVars false
set_option linter.unusedSimpArgs false

namespace Verif.Props
open Verif.Model Verif.Model.Symp Verif.Model.Conv Verif.Model.Fock Verif.Model.FG Verif.Spec Verif.Lemmas Verif.Lemmas.Symp Verif.Lemmas.Heis Matrix

/-- an operator with the Heisenberg relations and the vacuum amplitude of `gaussU` -/
theorem gate_eq {l : ℕ} {S : Matrix (Fin l ⊕ Fin l) (Fin l ⊕ Fin l) ℝ} {α : Fin l → ℂ} {U : (Fin l → ℕ) → (Fin l → ℕ) → ℂ} (hS : S ∈ symplecticGroup (Fin l) ℝ)
    (hU : Heisenberg (bogE S) (bogF S) α U) (h0 : U 0 0 = uVac (bogE S) (bogF S) α) : U = gaussU S α := by
  have h := heis_prop (bogE_isUnit hS) hU (gaussU_correct hS α).heisenberg
  have hv := gaussianUnitary_vacuum hS (gaussU_correct hS α)
  funext i j
  have := h i j
  rw [h0, ← gaussU_zero] at this
  exact mul_left_cancel₀ hv this

/-- the vacuum amplitude determines `gaussU` -/
theorem gaussU_of_vacuum {l : ℕ} {S : Matrix (Fin l ⊕ Fin l) (Fin l ⊕ Fin l) ℝ} {α : Fin l → ℂ} {U : (Fin l → ℕ) → (Fin l → ℕ) → ℂ} (hS : S ∈ symplecticGroup (Fin l) ℝ)
    (hU : IsGaussianUnitary S α U) (h0 : VacuumAmplitude S α (U 0 0)) : U = gaussU S α := by
  refine gate_eq hS hU.heisenberg ?_
  obtain ⟨M, hM, hv⟩ := h0
  have : M = bogF S * (cj (bogE S))⁻¹ := by
    have hM' : M * cj (bogE S) = bogF S := hM
    rw [← hM', Matrix.mul_assoc, cj_mul_inv (symp_bog hS), Matrix.mul_one]
  rw [hv, this]
  rfl

/-! #### one mode -/

theorem single_one (i : Fin 1 → ℕ) : (i + Pi.single 0 1 : Fin 1 → ℕ) 0 = i 0 + 1 ∧ (i - Pi.single 0 1 : Fin 1 → ℕ) 0 = i 0 - 1 := by simp

theorem heis_one {E F : Matrix (Fin 1) (Fin 1) ℂ} {α : Fin 1 → ℂ} (D : ℕ → ℕ → ℂ)
    (h1 : ∀ m n, root (m + 1) * D (m + 1) n = E 0 0 * (root n * D m (n - 1)) + F 0 0 * (root (n + 1) * D m (n + 1)) + α 0 * D m n)
    (h2 : ∀ m n, root m * D (m - 1) n = (starRingEnd ℂ) (E 0 0) * (root (n + 1) * D m (n + 1)) + (starRingEnd ℂ) (F 0 0) * (root n * D m (n - 1)) + (starRingEnd ℂ) (α 0) * D m n) :
    Heisenberg E F α fun i j : Fin 1 → ℕ => D (i 0) (j 0) := by
  constructor
  · intro k i j
    fin_cases k
    simp only [Fin.zero_eta, Fin.isValue, Fin.sum_univ_one, (single_one i).1, (single_one j).1, (single_one j).2]
    exact h1 _ _
  · intro k i j
    fin_cases k
    simp only [Fin.zero_eta, Fin.isValue, Fin.sum_univ_one, (single_one i).2, (single_one j).1, (single_one j).2]
    exact h2 _ _

/-- the identity is a symplectic matrix -/
theorem eye_symp (l : ℕ) : IsSymp l (eye : ℕ → ℕ → ℝ) := by
  rw [IsSymp, phase_eye]; exact Submonoid.one_mem _

theorem displacement_gaussU (r phi : ℝ) : (fun i j : Fin 1 → ℕ => dispA r phi (i 0) (j 0)) = gaussU (phase 1 1 eye) fun _ => r * Complex.exp (Complex.I * phi) := by
  have hD := displacement_exists r phi
  refine gate_eq (eye_symp 1) ?_ ?_
  · rw [phase_eye, bogE_one, bogF_one]
    refine heis_one _ (fun m n => ?_) fun m n => ?_
    · rw [hD.ann]; simp
    · have := hD.cre m n
      simp only [Matrix.one_apply_eq, Matrix.zero_apply, map_one, map_zero]
      linear_combination -this
  · change dispA r phi 0 0 = _
    rw [hD.vac, phase_eye, bogE_one, bogF_one, uVac]
    simp only [Fin.sum_univ_one, Matrix.zero_mul, Matrix.zero_mulVec, dotProduct_zero, sub_zero, det_one, norm_one, Real.sqrt_one, Complex.ofReal_one, div_one]
    rw [Complex.ofReal_exp]
    congr 1
    push_cast
    ring

theorem squeezing_entries (r theta : ℝ) : bogE (phase 1 1 (Symp.squeezing [r] (some [theta]))) 0 0 = (Real.cosh r : ℂ) ∧
    bogF (phase 1 1 (Symp.squeezing [r] (some [theta]))) 0 0 = -(Complex.exp (Complex.I * theta) * (Real.sinh r : ℂ)) := by
  have e : ∀ p q : Fin 1 ⊕ Fin 1, phase 1 1 (Symp.squeezing [r] (some [theta])) p q = Symp.squeezing [r] (some [theta]) (quad 1 p) (quad 1 q) := fun _ _ => rfl
  have q0 : quad 1 (.inl (0 : Fin 1)) = 0 := rfl
  have q1 : quad 1 (.inr (0 : Fin 1)) = 1 := rfl
  have hs : Symp.squeezing [r] (some [theta]) = squeezeOne 1 eye 0 r theta := by
    simp [Symp.squeezing, forRange, List.range_succ]
  rw [mul_comm Complex.I, Complex.exp_mul_I]
  constructor
  · rw [bogE, of_apply, e, e, e, e, q0, q1, hs]
    apply Complex.ext
    · simp [squeezeOne, upd2, Complex.cosh_ofReal_re]
    · simp [squeezeOne, upd2, Complex.cosh_ofReal_im]
  · rw [bogF, of_apply, e, e, e, e, q0, q1, hs, ← Complex.ofReal_cos, ← Complex.ofReal_sin]
    apply Complex.ext
    · simp only [Complex.neg_re, Complex.mul_re, Complex.add_re, Complex.ofReal_re, Complex.ofReal_im, Complex.I_re, Complex.I_im, Complex.add_im, Complex.mul_im]
      simp [squeezeOne, upd2]; ring
    · simp only [Complex.neg_im, Complex.mul_re, Complex.add_re, Complex.ofReal_re, Complex.ofReal_im, Complex.I_re, Complex.I_im, Complex.add_im, Complex.mul_im]
      simp [squeezeOne, upd2]; ring

theorem squeezing_gaussU (r theta : ℝ) : (fun i j : Fin 1 → ℕ => squA r theta (i 0) (j 0)) = gaussU (phase 1 1 (Symp.squeezing [r] (some [theta]))) 0 := by
  have hD := squeezing_exists r theta
  obtain ⟨hE, hF⟩ := squeezing_entries r theta
  have hch := ofReal_cosh_ne r
  have hcs := ofReal_cosh_sq r
  have hee := ei_mul_neg theta
  have hc : (starRingEnd ℂ) (Complex.exp (Complex.I * theta)) = ei (-theta) := ei_conj theta
  refine gate_eq (squeezing_symplectic [r] (some [theta]) (by simp)) ?_ ?_
  · refine heis_one _ (fun m n => ?_) fun m n => ?_
    · rw [hD.ann, hE, hF, Pi.zero_apply]; ring
    · have h1 := hD.cre m n
      have h2 := hD.ann m n
      rw [hc] at h1
      change ei theta * ei (-theta) = 1 at hee
      have h2' : root (m + 1) * squA r theta (m + 1) n = (Real.cosh r : ℂ) * (root n * squA r theta m (n - 1)) - ei theta * (Real.sinh r : ℂ) * (root (n + 1) * squA r theta m (n + 1)) := h2
      rw [hE, hF, Pi.zero_apply, map_neg, map_mul, hc, Complex.conj_ofReal, Complex.conj_ofReal, map_zero]
      generalize (Real.cosh r : ℂ) = C at *
      generalize (Real.sinh r : ℂ) = T at *
      generalize ei theta = e at *
      generalize ei (-theta) = e' at *
      rw [h2'] at h1
      apply mul_left_cancel₀ hch
      linear_combination -h1 + T * T * (root (n + 1) * squA r theta m (n + 1)) * hee - root (n + 1) * squA r theta m (n + 1) * hcs
  · change squA r theta 0 0 = _
    rw [hD.vac, uVac, det_fin_one, hE, Complex.norm_real, Real.norm_of_nonneg (Real.cosh_pos r).le]
    simp

/-! #### two modes -/

theorem heis_two {E F : Matrix (Fin 2) (Fin 2) ℂ} (Z : ℕ → ℕ → ℕ → ℕ → ℂ)
    (a1 : ∀ m n p q, root (m + 1) * Z (m + 1) n p q = (E 0 0 * (root p * Z m n (p - 1) q) + F 0 0 * (root (p + 1) * Z m n (p + 1) q)) + (E 0 1 * (root q * Z m n p (q - 1)) + F 0 1 * (root (q + 1) * Z m n p (q + 1))))
    (a2 : ∀ m n p q, root (n + 1) * Z m (n + 1) p q = (E 1 0 * (root p * Z m n (p - 1) q) + F 1 0 * (root (p + 1) * Z m n (p + 1) q)) + (E 1 1 * (root q * Z m n p (q - 1)) + F 1 1 * (root (q + 1) * Z m n p (q + 1))))
    (c1 : ∀ m n p q, root m * Z (m - 1) n p q = ((starRingEnd ℂ) (E 0 0) * (root (p + 1) * Z m n (p + 1) q) + (starRingEnd ℂ) (F 0 0) * (root p * Z m n (p - 1) q)) +
      ((starRingEnd ℂ) (E 0 1) * (root (q + 1) * Z m n p (q + 1)) + (starRingEnd ℂ) (F 0 1) * (root q * Z m n p (q - 1))))
    (c2 : ∀ m n p q, root n * Z m (n - 1) p q = ((starRingEnd ℂ) (E 1 0) * (root (p + 1) * Z m n (p + 1) q) + (starRingEnd ℂ) (F 1 0) * (root p * Z m n (p - 1) q)) +
      ((starRingEnd ℂ) (E 1 1) * (root (q + 1) * Z m n p (q + 1)) + (starRingEnd ℂ) (F 1 1) * (root q * Z m n p (q - 1)))) :
    Heisenberg E F 0 fun i j : Fin 2 → ℕ => Z (i 0) (i 1) (j 0) (j 1) := by
  have s00 : ∀ i : Fin 2 → ℕ, (i + Pi.single 0 1 : Fin 2 → ℕ) 0 = i 0 + 1 := fun i => by simp
  have s01 : ∀ i : Fin 2 → ℕ, (i + Pi.single 0 1 : Fin 2 → ℕ) 1 = i 1 := fun i => by simp
  have s10 : ∀ i : Fin 2 → ℕ, (i + Pi.single 1 1 : Fin 2 → ℕ) 0 = i 0 := fun i => by simp
  have s11 : ∀ i : Fin 2 → ℕ, (i + Pi.single 1 1 : Fin 2 → ℕ) 1 = i 1 + 1 := fun i => by simp
  have t00 : ∀ i : Fin 2 → ℕ, (i - Pi.single 0 1 : Fin 2 → ℕ) 0 = i 0 - 1 := fun i => by simp
  have t01 : ∀ i : Fin 2 → ℕ, (i - Pi.single 0 1 : Fin 2 → ℕ) 1 = i 1 := fun i => by simp
  have t10 : ∀ i : Fin 2 → ℕ, (i - Pi.single 1 1 : Fin 2 → ℕ) 0 = i 0 := fun i => by simp
  have t11 : ∀ i : Fin 2 → ℕ, (i - Pi.single 1 1 : Fin 2 → ℕ) 1 = i 1 - 1 := fun i => by simp
  constructor
  · intro k i j
    fin_cases k <;> simp only [Fin.zero_eta, Fin.mk_one, Fin.isValue, Fin.sum_univ_two, s00, s01, s10, s11, t00, t01, t10, t11, Pi.zero_apply, zero_mul, add_zero]
    · exact a1 _ _ _ _
    · exact a2 _ _ _ _
  · intro k i j
    fin_cases k <;> simp only [Fin.zero_eta, Fin.mk_one, Fin.isValue, Fin.sum_univ_two, s00, s01, s10, s11, t00, t01, t10, t11, Pi.zero_apply, zero_mul, add_zero, map_zero]
    · exact c1 _ _ _ _
    · exact c2 _ _ _ _

/-- the Bogoliubov matrices of an interferometer -/
theorem interferometer_bog (l : ℕ) (U : ℕ → ℕ → ℂ) : bogE (phase l l (Symp.interferometer l l U)) = toMatrix l l U ∧ bogF (phase l l (Symp.interferometer l l U)) = 0 := by
  rw [phase_interferometer]
  constructor
  · ext i j
    apply Complex.ext <;> simp [bogE, toMatrix]
  · ext i j
    apply Complex.ext <;> simp [bogF]

theorem interferometer2_gaussU (U : ℕ → ℕ → ℂ) (V : Matrix (Fin 2) (Fin 2) ℂ) (hV : toMatrix 2 2 U = V) (hU : Vᴴ * V = 1) :
    (fun i j : Fin 2 → ℕ => intA V (i 0) (i 1) (j 0) (j 1)) = gaussU (phase 2 2 (Symp.interferometer 2 2 U)) 0 ∧ IsSymp 2 (Symp.interferometer 2 2 U) := by
  obtain ⟨hE, hF⟩ := interferometer_bog 2 U
  rw [hV] at hE
  have hS : IsSymp 2 (Symp.interferometer 2 2 U) := by
    rw [interferometer_symplectic_iff, hV]
    exact mem_unitaryGroup_iff'.mpr hU
  refine ⟨gate_eq hS ?_ ?_, hS⟩
  · rw [hE, hF]
    have hD := interferometer2_exists V
    have hU' : V * Vᴴ = 1 := mul_eq_one_comm.mp hU
    have e : ∀ a b, V a 0 * (starRingEnd ℂ) (V b 0) + V a 1 * (starRingEnd ℂ) (V b 1) = if a = b then 1 else 0 := by
      intro a b
      have := congrFun (congrFun hU' a) b
      rwa [Matrix.mul_apply, Fin.sum_univ_two, Matrix.one_apply] at this
    have e00 := e 0 0; have e01 := e 0 1; have e10 := e 1 0; have e11 := e 1 1
    rw [if_pos rfl] at e00 e11
    rw [if_neg (by decide)] at e01 e10
    refine heis_two _ (fun m n p q => ?_) (fun m n p q => ?_) (fun m n p q => ?_) fun m n p q => ?_
    · rw [hD.ann1]; simp
    · rw [hD.ann2]; simp
    · rw [hD.cre1, hD.cre2]
      simp only [Matrix.zero_apply, map_zero, zero_mul, add_zero]
      linear_combination (-(root m * intA V (m - 1) n p q)) * e00 - root n * intA V m (n - 1) p q * e10
    · rw [hD.cre1, hD.cre2]
      simp only [Matrix.zero_apply, map_zero, zero_mul, add_zero]
      linear_combination (-(root n * intA V m (n - 1) p q)) * e11 - root m * intA V (m - 1) n p q * e01
  · change intA V 0 0 0 0 = _
    have hd : ‖V.det‖ = 1 := by
      have := congrArg (fun X => ‖X.det‖) hU
      simp only [det_mul, det_conjTranspose, norm_mul, norm_star, det_one, norm_one] at this
      have h0 := norm_nonneg V.det
      nlinarith
    rw [(interferometer2_exists V).vac, hE, hF, uVac, hd]
    simp

theorem twoModeSqueezing_bog (r theta : ℝ) : bogE (phase 2 2 (Symp.twoModeSqueezing r theta)) = (Real.cosh r : ℂ) • 1 ∧
    bogF (phase 2 2 (Symp.twoModeSqueezing r theta)) = (ei theta * (Real.sinh r : ℂ)) • !![0, 1; 1, 0] := by
  have e : ∀ p q : Fin 2 ⊕ Fin 2, phase 2 2 (Symp.twoModeSqueezing r theta) p q = Symp.twoModeSqueezing r theta (quad 2 p) (quad 2 q) := fun _ _ => rfl
  have hei : ei theta = (Real.cos theta : ℂ) + (Real.sin theta : ℂ) * Complex.I := by
    unfold ei; rw [mul_comm Complex.I, Complex.exp_mul_I, Complex.ofReal_cos, Complex.ofReal_sin]
  have q0 : quad 2 (.inl (0 : Fin 2)) = 0 := rfl
  have q1 : quad 2 (.inl (1 : Fin 2)) = 1 := rfl
  have q2 : quad 2 (.inr (0 : Fin 2)) = 2 := rfl
  have q3 : quad 2 (.inr (1 : Fin 2)) = 3 := rfl
  constructor
  · ext i j
    rw [bogE, of_apply, e, e, e, e, Matrix.smul_apply]
    apply Complex.ext <;> fin_cases i <;> fin_cases j <;>
      simp only [Fin.zero_eta, Fin.mk_one, Fin.isValue, q0, q1, q2, q3, Matrix.one_apply, smul_eq_mul, Complex.mul_re, Complex.mul_im, Complex.ofReal_re, Complex.ofReal_im] <;>
      simp [Symp.twoModeSqueezing, lit4]
  · ext i j
    rw [bogF, of_apply, e, e, e, e, Matrix.smul_apply, hei]
    apply Complex.ext <;> fin_cases i <;> fin_cases j <;>
      simp only [Fin.zero_eta, Fin.mk_one, Fin.isValue, q0, q1, q2, q3, smul_eq_mul, of_apply, cons_val', cons_val_zero, cons_val_one, cons_val_fin_one, mul_zero, mul_one, Complex.mul_re, Complex.mul_im,
        Complex.add_re, Complex.add_im, Complex.ofReal_re, Complex.ofReal_im, Complex.I_re, Complex.I_im, Complex.zero_re, Complex.zero_im] <;>
      simp [Symp.twoModeSqueezing, lit4] <;> ring

theorem twoModeSqueezing_gaussU (r theta : ℝ) : (fun i j : Fin 2 → ℕ => tmsA r theta (i 0) (i 1) (j 0) (j 1)) = gaussU (phase 2 2 (Symp.twoModeSqueezing r theta)) 0 := by
  obtain ⟨hE, hF⟩ := twoModeSqueezing_bog r theta
  have hD := twoModeSqueezing_exists r theta
  have hch := ofReal_cosh_ne r
  have hcs := ofReal_cosh_sq r
  have hee := ei_mul_neg theta
  have hc : (starRingEnd ℂ) (ei theta) = ei (-theta) := ei_conj theta
  refine gate_eq (twoModeSqueezing_symplectic r theta) ?_ ?_
  · rw [hE, hF]
    have E00 : ((Real.cosh r : ℂ) • (1 : Matrix (Fin 2) (Fin 2) ℂ)) 0 0 = Real.cosh r := by simp only [Matrix.smul_apply, Matrix.one_apply_eq, smul_eq_mul, mul_one]
    have E11 : ((Real.cosh r : ℂ) • (1 : Matrix (Fin 2) (Fin 2) ℂ)) 1 1 = Real.cosh r := by simp only [Matrix.smul_apply, Matrix.one_apply_eq, smul_eq_mul, mul_one]
    have E01 : ((Real.cosh r : ℂ) • (1 : Matrix (Fin 2) (Fin 2) ℂ)) 0 1 = 0 := by simp
    have E10 : ((Real.cosh r : ℂ) • (1 : Matrix (Fin 2) (Fin 2) ℂ)) 1 0 = 0 := by simp
    have F00 : ((ei theta * (Real.sinh r : ℂ)) • (!![0, 1; 1, 0] : Matrix (Fin 2) (Fin 2) ℂ)) 0 0 = 0 := by simp
    have F11 : ((ei theta * (Real.sinh r : ℂ)) • (!![0, 1; 1, 0] : Matrix (Fin 2) (Fin 2) ℂ)) 1 1 = 0 := by simp
    have F01 : ((ei theta * (Real.sinh r : ℂ)) • (!![0, 1; 1, 0] : Matrix (Fin 2) (Fin 2) ℂ)) 0 1 = ei theta * (Real.sinh r : ℂ) := by
      simp only [Matrix.smul_apply, of_apply, cons_val', cons_val_zero, cons_val_one, cons_val_fin_one, smul_eq_mul, mul_one]
    have F10 : ((ei theta * (Real.sinh r : ℂ)) • (!![0, 1; 1, 0] : Matrix (Fin 2) (Fin 2) ℂ)) 1 0 = ei theta * (Real.sinh r : ℂ) := by
      simp only [Matrix.smul_apply, of_apply, cons_val', cons_val_zero, cons_val_one, cons_val_fin_one, smul_eq_mul, mul_one]
    have A1 := hD.ann1; have A2 := hD.ann2; have C1 := hD.cre1; have C2 := hD.cre2
    change ∀ m n p q, root (m + 1) * tmsA r theta (m + 1) n p q = (Real.cosh r : ℂ) * (root p * tmsA r theta m n (p - 1) q) + ei theta * (Real.sinh r : ℂ) * (root (q + 1) * tmsA r theta m n p (q + 1)) at A1
    change ∀ m n p q, root (n + 1) * tmsA r theta m (n + 1) p q = (Real.cosh r : ℂ) * (root q * tmsA r theta m n p (q - 1)) + ei theta * (Real.sinh r : ℂ) * (root (p + 1) * tmsA r theta m n (p + 1) q) at A2
    change ∀ m n p q, root (p + 1) * tmsA r theta m n (p + 1) q = (Real.cosh r : ℂ) * (root m * tmsA r theta (m - 1) n p q) - (starRingEnd ℂ) (ei theta) * (Real.sinh r : ℂ) * (root (n + 1) * tmsA r theta m (n + 1) p q) at C1
    change ∀ m n p q, root (q + 1) * tmsA r theta m n p (q + 1) = (Real.cosh r : ℂ) * (root n * tmsA r theta m (n - 1) p q) - (starRingEnd ℂ) (ei theta) * (Real.sinh r : ℂ) * (root (m + 1) * tmsA r theta (m + 1) n p q) at C2
    refine heis_two _ (fun m n p q => ?_) (fun m n p q => ?_) (fun m n p q => ?_) fun m n p q => ?_
    · rw [A1, E00, E01, F00, F01]; ring
    · rw [A2, E10, E11, F10, F11]; ring
    · have h1 := C1 m n p q
      rw [A2, hc] at h1
      rw [E00, E01, F00, F01, map_mul, hc, map_zero, Complex.conj_ofReal, Complex.conj_ofReal]
      generalize (Real.cosh r : ℂ) = C at *
      generalize (Real.sinh r : ℂ) = T at *
      generalize ei theta = e at *
      generalize ei (-theta) = e' at *
      apply mul_left_cancel₀ hch
      linear_combination -h1 + T * T * (root (p + 1) * tmsA r theta m n (p + 1) q) * hee - root (p + 1) * tmsA r theta m n (p + 1) q * hcs
    · have h1 := C2 m n p q
      rw [A1, hc] at h1
      rw [E10, E11, F10, F11, map_mul, hc, map_zero, Complex.conj_ofReal, Complex.conj_ofReal]
      generalize (Real.cosh r : ℂ) = C at *
      generalize (Real.sinh r : ℂ) = T at *
      generalize ei theta = e at *
      generalize ei (-theta) = e' at *
      apply mul_left_cancel₀ hch
      linear_combination -h1 + T * T * (root (q + 1) * tmsA r theta m n p (q + 1)) * hee - root (q + 1) * tmsA r theta m n p (q + 1) * hcs
  · change tmsA r theta 0 0 0 0 = _
    rw [hD.vac, hE, uVac, det_smul, det_one, mul_one, norm_pow, Complex.norm_real, Real.norm_of_nonneg (Real.cosh_pos r).le, Fintype.card_fin, Real.sqrt_sq (Real.cosh_pos r).le]
    simp

/-! #### the arrays of `fock_tensor` -/

theorem fockTensor_gaussU {l : ℕ} (S : ℕ → ℕ → ℝ) (hS : IsSymp l S) (alpha : ℕ → ℂ) (sjunk : ℕ → ℂ) (closeR : ℝ → ℝ → Bool) (closeC : ℂ → ℂ → Bool) (hR : ∀ x y, closeR x y = true ↔ x = y)
    (hC : ∀ x y, closeC x y = true ↔ x = y) (cutoff : ℕ) (choiR : ℝ) (checkSymplectic sfOrd : Bool) (atol : ℝ) (h0 : 0 < cutoff) (h1 : cutoff ≤ 1000) (hr : choiR ≠ 0) :
    ∃ T, fockTensor (sqrtTable sjunk) (isClose 0 0) closeR closeC (2 * l) S l alpha cutoff choiR checkSymplectic sfOrd atol = .ok T ∧
      ∀ i j : Fin l → ℕ, (∀ k, i k < cutoff) → (∀ k, j k < cutoff) →
        T (if sfOrd then (List.finRange l).flatMap fun k => [i k, j k] else List.ofFn i ++ List.ofFn j) = gaussU (phase l l S) (fun k : Fin l => alpha k) i j := by
  obtain ⟨U, hU, hv, h⟩ := fockTensor_correct S hS alpha
  rw [← gaussU_of_vacuum hS hU hv]
  refine h sjunk closeR closeC cutoff choiR checkSymplectic sfOrd atol (fun x => (hR x x).mpr rfl) (fun a b => ⟨fun i hi j hj => (hR _ _).mp (a i hi j hj), fun i hi => (hC _ _).mp (b i hi)⟩) h0 h1 hr

theorem fockTensor_one (S : ℕ → ℕ → ℝ) (hS : IsSymp 1 S) (alpha : ℕ → ℂ) (D : ℕ → ℕ → ℂ) (hD : (fun i j : Fin 1 → ℕ => D (i 0) (j 0)) = gaussU (phase 1 1 S) fun k : Fin 1 => alpha k)
    (sjunk : ℕ → ℂ) (closeR : ℝ → ℝ → Bool) (closeC : ℂ → ℂ → Bool) (hR : ∀ x y, closeR x y = true ↔ x = y)
    (hC : ∀ x y, closeC x y = true ↔ x = y) (cutoff : ℕ) (choiR : ℝ) (checkSymplectic sfOrd : Bool) (atol : ℝ) (h0 : 0 < cutoff) (h1 : cutoff ≤ 1000) (hr : choiR ≠ 0) :
    ∃ T, fockTensor (sqrtTable sjunk) (isClose 0 0) closeR closeC 2 S 1 alpha cutoff choiR checkSymplectic sfOrd atol = .ok T ∧ ∀ m < cutoff, ∀ n < cutoff, T [m, n] = D m n := by
  obtain ⟨T, hT, h⟩ := fockTensor_gaussU S hS alpha sjunk closeR closeC hR hC cutoff choiR checkSymplectic sfOrd atol h0 h1 hr
  refine ⟨T, hT, fun m hm n hn => ?_⟩
  have := h (fun _ => m) (fun _ => n) (fun _ => hm) fun _ => hn
  rw [← hD] at this
  refine Eq.trans ?_ this
  cases sfOrd <;> rfl

theorem fockTensor_two (S : ℕ → ℕ → ℝ) (hS : IsSymp 2 S) (Z : ℕ → ℕ → ℕ → ℕ → ℂ) (hZ : (fun i j : Fin 2 → ℕ => Z (i 0) (i 1) (j 0) (j 1)) = gaussU (phase 2 2 S) 0)
    (sjunk : ℕ → ℂ) (closeR : ℝ → ℝ → Bool) (closeC : ℂ → ℂ → Bool) (hR : ∀ x y, closeR x y = true ↔ x = y)
    (hC : ∀ x y, closeC x y = true ↔ x = y) (cutoff : ℕ) (choiR : ℝ) (checkSymplectic sfOrd : Bool) (atol : ℝ) (h0 : 0 < cutoff) (h1 : cutoff ≤ 1000) (hr : choiR ≠ 0) :
    ∃ T, fockTensor (sqrtTable sjunk) (isClose 0 0) closeR closeC 4 S 2 (fun _ => 0) cutoff choiR checkSymplectic sfOrd atol = .ok T ∧
      ∀ m < cutoff, ∀ n < cutoff, ∀ p < cutoff, ∀ q < cutoff, T (if sfOrd then [m, p, n, q] else [m, n, p, q]) = Z m n p q := by
  obtain ⟨T, hT, h⟩ := fockTensor_gaussU S hS (fun _ => 0) sjunk closeR closeC hR hC cutoff choiR checkSymplectic sfOrd atol h0 h1 hr
  refine ⟨T, hT, fun m hm n hn p hp q hq => ?_⟩
  have := h ![m, n] ![p, q] (fun k => by fin_cases k <;> assumption) fun k => by fin_cases k <;> assumption
  have hz : (fun k : Fin 2 => (fun _ => 0 : ℕ → ℂ) k) = 0 := rfl
  rw [hz, ← hZ] at this
  refine Eq.trans ?_ this
  cases sfOrd <;> rfl

/-- **C82** `displacement(r, phi, cutoff)` holds the matrix elements of the Gaussian unitary with the identity as symplectic matrix and the displacement `r exp(i phi)`, and `fock_tensor` returns the same array. -/
theorem displacement_gaussian (r phi : ℝ) :
    (∃ U : (Fin 1 → ℕ) → (Fin 1 → ℕ) → ℂ, IsGaussianUnitary 1 (fun _ => r * Complex.exp (Complex.I * phi)) U ∧ ∀ c, ∀ m < c, ∀ n < c, FG.displacement r phi c m n = U (fun _ => m) fun _ => n) ∧
    ∀ (sjunk : ℕ → ℂ) (closeR : ℝ → ℝ → Bool) (closeC : ℂ → ℂ → Bool), (∀ x y, closeR x y = true ↔ x = y) → (∀ x y, closeC x y = true ↔ x = y) →
      ∀ (cutoff : ℕ) (choiR : ℝ) (checkSymplectic sfOrd : Bool) (atol : ℝ), 0 < cutoff → cutoff ≤ 1000 → choiR ≠ 0 →
      ∃ T, fockTensor (sqrtTable sjunk) (isClose 0 0) closeR closeC 2 eye 1 (fun _ => r * Complex.exp (Complex.I * phi)) cutoff choiR checkSymplectic sfOrd atol = .ok T ∧
        ∀ m < cutoff, ∀ n < cutoff, T [m, n] = FG.displacement r phi cutoff m n := by
  have hg := displacement_gaussU r phi
  refine ⟨⟨fun i j : Fin 1 → ℕ => dispA r phi (i 0) (j 0), ?_, fun c m hm n hn => displacement_amp r phi c m n hm hn⟩, fun sjunk closeR closeC hR hC cutoff choiR cs sf atol h0 h1 hr => ?_⟩
  · have := gaussU_correct (eye_symp 1) fun _ => r * Complex.exp (Complex.I * phi)
    rw [← hg, phase_eye] at this
    exact this
  · obtain ⟨T, hT, h⟩ := fockTensor_one eye (eye_symp 1) (fun _ => r * Complex.exp (Complex.I * phi)) (dispA r phi) hg sjunk closeR closeC hR hC cutoff choiR cs sf atol h0 h1 hr
    exact ⟨T, hT, fun m hm n hn => by rw [h m hm n hn, displacement_amp r phi cutoff m n hm hn]⟩

/-- **C82** `squeezing(r, theta, cutoff)` of fock_gradients holds the matrix elements of the Gaussian unitary of `symplectic.squeezing([r], [theta])`, and `fock_tensor` returns the same array. -/
theorem squeezing_gaussian (r theta : ℝ) :
    (∃ U : (Fin 1 → ℕ) → (Fin 1 → ℕ) → ℂ, IsGaussianUnitary (phase 1 1 (Symp.squeezing [r] (some [theta]))) 0 U ∧ ∀ c, ∀ m < c, ∀ n < c, FG.squeezing r theta c m n = U (fun _ => m) fun _ => n) ∧
    ∀ (sjunk : ℕ → ℂ) (closeR : ℝ → ℝ → Bool) (closeC : ℂ → ℂ → Bool), (∀ x y, closeR x y = true ↔ x = y) → (∀ x y, closeC x y = true ↔ x = y) →
      ∀ (cutoff : ℕ) (choiR : ℝ) (checkSymplectic sfOrd : Bool) (atol : ℝ), 0 < cutoff → cutoff ≤ 1000 → choiR ≠ 0 →
      ∃ T, fockTensor (sqrtTable sjunk) (isClose 0 0) closeR closeC 2 (Symp.squeezing [r] (some [theta])) 1 (fun _ => 0) cutoff choiR checkSymplectic sfOrd atol = .ok T ∧
        ∀ m < cutoff, ∀ n < cutoff, T [m, n] = FG.squeezing r theta cutoff m n := by
  have hg := squeezing_gaussU r theta
  have hS : IsSymp 1 (Symp.squeezing [r] (some [theta])) := squeezing_symplectic [r] (some [theta]) (by simp)
  refine ⟨⟨fun i j : Fin 1 → ℕ => squA r theta (i 0) (j 0), ?_, fun c m hm n hn => squeezing_amp r theta c m n hm hn⟩, fun sjunk closeR closeC hR hC cutoff choiR cs sf atol h0 h1 hr => ?_⟩
  · have := gaussU_correct hS 0
    rw [← hg] at this
    exact this
  · obtain ⟨T, hT, h⟩ := fockTensor_one _ hS (fun _ => 0) (squA r theta) hg sjunk closeR closeC hR hC cutoff choiR cs sf atol h0 h1 hr
    exact ⟨T, hT, fun m hm n hn => by rw [h m hm n hn, squeezing_amp r theta cutoff m n hm hn]⟩

theorem beamSplitter_matrix (theta phi : ℝ) : ∃ U : ℕ → ℕ → ℂ, Symp.beamSplitter theta phi = Symp.interferometer 2 2 U ∧ toMatrix 2 2 U = beamsplitterU theta phi := by
  refine ⟨_, rfl, ?_⟩
  have hei : ei phi = (Real.cos phi : ℂ) + Complex.I * (Real.sin phi : ℂ) := by
    unfold ei; rw [mul_comm Complex.I, Complex.exp_mul_I, Complex.ofReal_cos, Complex.ofReal_sin, mul_comm]
  rw [beamsplitterU_eq, ← ei_conj, hei]
  ext i j
  fin_cases i <;> fin_cases j
  · rfl
  · change -(starRingEnd ℂ) _ * _ = -(_ * _); rw [neg_mul]
  · rfl
  · rfl

/-- **C82** `beamsplitter(theta, phi, cutoff)` holds the matrix elements of the Gaussian unitary of `symplectic.beam_splitter(theta, phi)`, and `fock_tensor` returns the same array. -/
theorem beamsplitter_gaussian (theta phi : ℝ) :
    (∃ U : (Fin 2 → ℕ) → (Fin 2 → ℕ) → ℂ, IsGaussianUnitary (phase 2 2 (Symp.beamSplitter theta phi)) 0 U ∧
      ∀ c, ∀ m < c, ∀ n < c, ∀ p < c, ∀ q < c, FG.beamsplitter theta phi c m n p q = U ![m, n] ![p, q]) ∧
    ∀ (sjunk : ℕ → ℂ) (closeR : ℝ → ℝ → Bool) (closeC : ℂ → ℂ → Bool), (∀ x y, closeR x y = true ↔ x = y) → (∀ x y, closeC x y = true ↔ x = y) →
      ∀ (cutoff : ℕ) (choiR : ℝ) (checkSymplectic sfOrd : Bool) (atol : ℝ), 0 < cutoff → cutoff ≤ 1000 → choiR ≠ 0 →
      ∃ T, fockTensor (sqrtTable sjunk) (isClose 0 0) closeR closeC 4 (Symp.beamSplitter theta phi) 2 (fun _ => 0) cutoff choiR checkSymplectic sfOrd atol = .ok T ∧
        ∀ m < cutoff, ∀ n < cutoff, ∀ p < cutoff, ∀ q < cutoff, T (if sfOrd then [m, p, n, q] else [m, n, p, q]) = FG.beamsplitter theta phi cutoff m n p q := by
  obtain ⟨U, hB, hU⟩ := beamSplitter_matrix theta phi
  obtain ⟨hg, hS⟩ := interferometer2_gaussU U _ hU (beamsplitterU_unitary theta phi)
  rw [hB]
  refine ⟨⟨fun i j : Fin 2 → ℕ => intA (beamsplitterU theta phi) (i 0) (i 1) (j 0) (j 1), ?_, fun c m hm n hn p hp q hq => beamsplitter_amp theta phi c m n p q hm hn hp hq⟩, fun sjunk closeR closeC hR hC cutoff choiR cs sf atol h0 h1 hr => ?_⟩
  · have := gaussU_correct hS 0
    rw [← hg] at this
    exact this
  · obtain ⟨T, hT, h⟩ := fockTensor_two _ hS _ hg sjunk closeR closeC hR hC cutoff choiR cs sf atol h0 h1 hr
    exact ⟨T, hT, fun m hm n hn p hp q hq => by rw [h m hm n hn p hp q hq, beamsplitter_amp theta phi cutoff m n p q hm hn hp hq]⟩

/-- **C82** `mzgate(theta, phi, cutoff)` holds the matrix elements of the Gaussian unitary of the interferometer with the matrix of the Mach-Zehnder gate, and `fock_tensor` returns the same array. -/
theorem mzgate_gaussian (theta phi : ℝ) (M : ℕ → ℕ → ℂ) (hM : toMatrix 2 2 M = mzgateU theta phi) :
    (∃ U : (Fin 2 → ℕ) → (Fin 2 → ℕ) → ℂ, IsGaussianUnitary (phase 2 2 (Symp.interferometer 2 2 M)) 0 U ∧
      ∀ c, ∀ m < c, ∀ n < c, ∀ p < c, ∀ q < c, FG.mzgate theta phi c m n p q = U ![m, n] ![p, q]) ∧
    ∀ (sjunk : ℕ → ℂ) (closeR : ℝ → ℝ → Bool) (closeC : ℂ → ℂ → Bool), (∀ x y, closeR x y = true ↔ x = y) → (∀ x y, closeC x y = true ↔ x = y) →
      ∀ (cutoff : ℕ) (choiR : ℝ) (checkSymplectic sfOrd : Bool) (atol : ℝ), 0 < cutoff → cutoff ≤ 1000 → choiR ≠ 0 →
      ∃ T, fockTensor (sqrtTable sjunk) (isClose 0 0) closeR closeC 4 (Symp.interferometer 2 2 M) 2 (fun _ => 0) cutoff choiR checkSymplectic sfOrd atol = .ok T ∧
        ∀ m < cutoff, ∀ n < cutoff, ∀ p < cutoff, ∀ q < cutoff, T (if sfOrd then [m, p, n, q] else [m, n, p, q]) = FG.mzgate theta phi cutoff m n p q := by
  obtain ⟨hg, hS⟩ := interferometer2_gaussU M _ hM (mzgateU_unitary theta phi)
  refine ⟨⟨fun i j : Fin 2 → ℕ => intA (mzgateU theta phi) (i 0) (i 1) (j 0) (j 1), ?_, fun c m hm n hn p hp q hq => mzgate_amp theta phi c m n p q hm hn hp hq⟩, fun sjunk closeR closeC hR hC cutoff choiR cs sf atol h0 h1 hr => ?_⟩
  · have := gaussU_correct hS 0
    rw [← hg] at this
    exact this
  · obtain ⟨T, hT, h⟩ := fockTensor_two _ hS _ hg sjunk closeR closeC hR hC cutoff choiR cs sf atol h0 h1 hr
    exact ⟨T, hT, fun m hm n hn p hp q hq => by rw [h m hm n hn p hp q hq, mzgate_amp theta phi cutoff m n p q hm hn hp hq]⟩

/-- **C82** `two_mode_squeezing(r, theta, cutoff)` of fock_gradients holds the matrix elements of the Gaussian unitary of `symplectic.two_mode_squeezing(r, theta)`, and `fock_tensor` returns the same array. -/
theorem twoModeSqueezing_gaussian (r theta : ℝ) :
    (∃ U : (Fin 2 → ℕ) → (Fin 2 → ℕ) → ℂ, IsGaussianUnitary (phase 2 2 (Symp.twoModeSqueezing r theta)) 0 U ∧
      ∀ c, ∀ m < c, ∀ n < c, ∀ p < c, ∀ q < c, FG.twoModeSqueezing r theta c m n p q = U ![m, n] ![p, q]) ∧
    ∀ (sjunk : ℕ → ℂ) (closeR : ℝ → ℝ → Bool) (closeC : ℂ → ℂ → Bool), (∀ x y, closeR x y = true ↔ x = y) → (∀ x y, closeC x y = true ↔ x = y) →
      ∀ (cutoff : ℕ) (choiR : ℝ) (checkSymplectic sfOrd : Bool) (atol : ℝ), 0 < cutoff → cutoff ≤ 1000 → choiR ≠ 0 →
      ∃ T, fockTensor (sqrtTable sjunk) (isClose 0 0) closeR closeC 4 (Symp.twoModeSqueezing r theta) 2 (fun _ => 0) cutoff choiR checkSymplectic sfOrd atol = .ok T ∧
        ∀ m < cutoff, ∀ n < cutoff, ∀ p < cutoff, ∀ q < cutoff, T (if sfOrd then [m, p, n, q] else [m, n, p, q]) = FG.twoModeSqueezing r theta cutoff m n p q := by
  have hg := twoModeSqueezing_gaussU r theta
  have hS := twoModeSqueezing_symplectic r theta
  refine ⟨⟨fun i j : Fin 2 → ℕ => tmsA r theta (i 0) (i 1) (j 0) (j 1), ?_, fun c m hm n hn p hp q hq => twoModeSqueezing_amp r theta c m n p q hm hn hp hq⟩, fun sjunk closeR closeC hR hC cutoff choiR cs sf atol h0 h1 hr => ?_⟩
  · have := gaussU_correct hS 0
    rw [← hg] at this
    exact this
  · obtain ⟨T, hT, h⟩ := fockTensor_two _ hS _ hg sjunk closeR closeC hR hC cutoff choiR cs sf atol h0 h1 hr
    exact ⟨T, hT, fun m hm n hn p hp q hq => by rw [h m hm n hn p hp q hq, twoModeSqueezing_amp r theta cutoff m n p q hm hn hp hq]⟩

end Verif.Props
