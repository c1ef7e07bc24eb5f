/-
C49: the Fock representations of the Gaussian gates and their gradients (thewalrus/fock_gradients.py).
-/
import Verif.Lemmas.FockFill
import Mathlib.Analysis.SpecialFunctions.Trigonometric.Deriv
import Mathlib.Analysis.SpecialFunctions.Trigonometric.DerivHyp
import Mathlib.Analysis.SpecialFunctions.ExpDeriv
import Mathlib.Analysis.SpecialFunctions.Sqrt
import Mathlib.Tactic.LinearCombination

set_option linter.unusedSimpArgs false
set_option linter.unusedSectionVars false

namespace Verif.Props
open Verif Verif.Model Verif.Model.FG Verif.Spec Verif.Lemmas

theorem root_one : root 1 = 1 := by simp [root]

/-- The recursion and the vacuum amplitude determine the amplitudes. -/
theorem fockAmp_unique {d : ℕ} (c : ℂ) (R : Matrix (Fin d) (Fin d) ℂ) (hR : R.IsSymm) (y : Fin d → ℂ) (F : (Fin d → ℕ) → ℂ) (h0 : F 0 = c)
    (h : ∀ k i, root (k i + 1) * F (k + Pi.single i 1) = y i * F k + ∑ j, R i j * (root (k j) * F (k - Pi.single j 1))) (k : Fin d → ℕ) :
    F k = fockAmp c R y k := by
  induction hn : ∑ i, k i using Nat.strong_induction_on generalizing k with
  | _ n ih =>
    by_cases hk : k = 0
    · subst hk; rw [h0, fockAmp_zero]
    · obtain ⟨l, hl⟩ : ∃ l, k l ≠ 0 := by
        by_contra h; push Not at h; exact hk (funext h)
      obtain ⟨k', rfl⟩ : ∃ k', k = k' + Pi.single l 1 := ⟨k - Pi.single l 1, (sub_add_single k l hl).symm⟩
      have hsum : ∑ i, (k' + Pi.single l 1 : Fin d → ℕ) i = ∑ i, k' i + 1 := by simp [Finset.sum_add_distrib]
      have e1 := h k' l
      have e2 := fockAmp_succ c R hR y k' l
      have hs : ∀ j, ∑ i, (k' - Pi.single j 1 : Fin d → ℕ) i ≤ ∑ i, k' i := fun j => Finset.sum_le_sum fun i _ => Nat.sub_le _ _
      rw [ih _ (by omega) k' rfl] at e1
      have e3 : ∀ j, F (k' - Pi.single j 1) = fockAmp c R y (k' - Pi.single j 1) := fun j => ih _ (by have := hs j; omega) _ rfl
      simp only [e3] at e1
      rw [← e2] at e1
      exact mul_left_cancel₀ (root_ne (Nat.succ_pos _)) e1

/-! ### exponentials -/

theorem ei_conj (t : ℝ) : (starRingEnd ℂ) (ei t) = ei (-t) := by
  unfold ei; rw [← Complex.exp_conj]; simp

theorem ei_norm (t : ℝ) : ‖ei t‖ = 1 := by unfold ei; rw [mul_comm]; exact Complex.norm_exp_ofReal_mul_I t

theorem ei_mul_neg (t : ℝ) : ei t * ei (-t) = 1 := by unfold ei; rw [← Complex.exp_add]; simp

theorem ei_neg' (t : ℝ) : ei (-t) = Complex.exp (-(Complex.I * t)) := by unfold ei; simp

theorem hasDerivAt_ei (t : ℝ) : HasDerivAt ei (Complex.I * ei t) t := by
  have h : HasDerivAt (fun s : ℝ => Complex.I * (s : ℂ)) (Complex.I * 1) t := (HasDerivAt.ofReal_comp (hasDerivAt_id t)).const_mul _
  have := h.cexp
  simp only [mul_one] at this
  refine this.congr_deriv ?_
  unfold ei; ring

theorem hasDerivAt_ei_neg (t : ℝ) : HasDerivAt (fun s => ei (-s)) (-(Complex.I * ei (-t))) t := by
  refine ((hasDerivAt_ei (-t)).scomp t (hasDerivAt_neg t)).congr_deriv ?_
  simp

/-! ### displacement -/

/-- matrix of the displacement -/
def dispR : Matrix (Fin 2) (Fin 2) ℂ := !![0, 1; 1, 0]

noncomputable def dispY (r phi : ℝ) : Fin 2 → ℂ := ![r * ei phi, -(r * ei (-phi))]

noncomputable def dispC (r : ℝ) : ℂ := ((Real.exp (-0.5 * r ^ 2) : ℝ) : ℂ)

theorem dispR_symm : dispR.IsSymm := by
  ext i j; fin_cases i <;> fin_cases j <;> rfl

/-- the amplitudes of the displacement -/
noncomputable def dispA (r phi : ℝ) (m n : ℕ) : ℂ := fockAmp (dispC r) dispR (dispY r phi) ![m, n]

theorem dispA_m (r phi : ℝ) (m n : ℕ) : root (m + 1) * dispA r phi (m + 1) n = r * ei phi * dispA r phi m n + root n * dispA r phi m (n - 1) := by
  have := fockAmp2_m (dispC r) dispR dispR_symm (dispY r phi) m n
  rw [show dispR 0 0 = 0 from rfl, show dispR 0 1 = 1 from rfl, show dispY r phi 0 = r * ei phi from rfl] at this
  unfold dispA; linear_combination this

theorem dispA_n (r phi : ℝ) (m n : ℕ) : root (n + 1) * dispA r phi m (n + 1) = -(r * ei (-phi)) * dispA r phi m n + root m * dispA r phi (m - 1) n := by
  have := fockAmp2_n (dispC r) dispR dispR_symm (dispY r phi) m n
  rw [show dispR 1 0 = 1 from rfl, show dispR 1 1 = 0 from rfl, show dispY r phi 1 = -(r * ei (-phi)) from rfl] at this
  unfold dispA; linear_combination this

theorem displacement_amp (r phi : ℝ) (c m n : ℕ) (hm : m < c) (hn : n < c) : displacement r phi c m n = dispA r phi m n := by
  unfold displacement
  refine fill2 c (by omega) (fun _ _ => True) (fun m n D => -r * ei (-phi) / sqA n * D m (n - 1) + sqA m / sqA n * D (ix c ((m : ℤ) - 1)) (n - 1)) _
    (dispA r phi) _ (fun m n A => by simp) ?_ ?_ m hm n hn
  · -- first column
    intro m hm n hn h
    obtain rfl : n = 0 := by simpa using h
    have key := forRange2_inv (fun k (D : Arr2) => ∀ m < k, D m 0 = dispA r phi m 0) (a := 1) (b := c) (by omega)
      (upd2 (fun _ _ => 0) 0 0 ((Real.exp (-0.5 * r ^ 2) : ℝ) : ℂ)) (fun m D => upd2 D m 0 (r * ei phi / sqA m * D (m - 1) 0)) (fun m hm => by
        obtain rfl : m = 0 := by omega
        unfold dispA
        rw [fockAmp2_zero]; simp [upd2, dispC])
      (fun k D hk hkc hD m hm => by
        unfold upd2
        split_ifs with e
        · obtain ⟨rfl, _⟩ := e
          have := dispA_m r phi (m - 1) 0
          rw [show m - 1 + 1 = m by omega, root_zero] at this
          have hne := root_ne (show 0 < m by omega)
          rw [hD (m - 1) (by omega), sqA_eq]
          field_simp
          linear_combination -this
        · exact hD m (by by_contra h'; exact e ⟨by omega, rfl⟩))
    exact key m hm
  · intro m hm n hn h1 _ B hB
    have := dispA_n r phi m (n - 1)
    rw [show n - 1 + 1 = n by omega] at this
    have hne := root_ne (show 0 < n by omega)
    rw [hB m hm (n - 1) (by omega) (.inr (.inr (.inr ⟨rfl, by omega⟩))), sqA_eq, sqA_eq]
    rcases Nat.eq_zero_or_pos m with rfl | hm0
    · rw [root_zero] at this ⊢
      field_simp
      linear_combination -this
    · rw [ix_pred hm0, hB (m - 1) (by omega) (n - 1) (by omega) (.inr (.inr (.inl (by omega))))]
      field_simp
      linear_combination -this

/-- **C49.** `displacement(r, phi, cutoff)` is the corner of the displacement operator by `r exp(i phi)`, for every cutoff: the array agrees with every solution of the
Heisenberg relations with that vacuum amplitude. -/
theorem displacement_correct (r phi : ℝ) (D : ℕ → ℕ → ℂ) (hD : IsDisplacement (r * Complex.exp (Complex.I * phi)) D) (c m n : ℕ) (hm : m < c) (hn : n < c) :
    displacement r phi c m n = D m n := by
  rw [displacement_amp r phi c m n hm hn]
  symm
  refine fockAmp_unique (dispC r) dispR dispR_symm (dispY r phi) (fun k => D (k 0) (k 1)) ?_ ?_ ![m, n]
  · have : ‖(r : ℂ) * Complex.exp (Complex.I * phi)‖ ^ 2 = r ^ 2 := by
      have := ei_norm phi; unfold ei at this
      rw [norm_mul, this]; simp
    change D 0 0 = _
    rw [hD.vac, this, dispC]
    congr 2; ring
  · have hc : (starRingEnd ℂ) ((r : ℂ) * Complex.exp (Complex.I * phi)) = r * ei (-phi) := by
      have := ei_conj phi
      rw [map_mul]; unfold ei at this ⊢; rw [this]; simp
    intro k i
    rw [Fin.sum_univ_two]
    fin_cases i
    · have := hD.ann (k 0) (k 1)
      simp [s2_0, s2_1, dispR, dispY]
      simp only [ei]
      linear_combination this
    · have := hD.cre (k 0) (k 1)
      rw [hc] at this
      simp [s2_0, s2_1, dispR, dispY]
      linear_combination this

/-- The displacement operator exists. -/
theorem displacement_exists (r phi : ℝ) : IsDisplacement (r * Complex.exp (Complex.I * phi)) (dispA r phi) := by
  have hc : (starRingEnd ℂ) ((r : ℂ) * Complex.exp (Complex.I * phi)) = r * ei (-phi) := by
    have := ei_conj phi
    rw [map_mul]; unfold ei at this ⊢; rw [this]; simp
  refine ⟨?_, fun m n => ?_, fun m n => ?_⟩
  · have : ‖(r : ℂ) * Complex.exp (Complex.I * phi)‖ ^ 2 = r ^ 2 := by
      have := ei_norm phi; unfold ei at this
      rw [norm_mul, this]; simp
    unfold dispA
    rw [fockAmp2_zero, this, dispC]
    congr 2; ring
  · rw [dispA_m]; unfold ei; ring
  · rw [dispA_n, hc]; ring

/-- the pair of gradient arrays, entry by entry -/
theorem gradDisplacement_entry (c : ℕ) (T : Arr2) (r phi : ℝ) (m n : ℕ) (hm : m < c) (hn : n < c) :
    (gradDisplacement c T r phi).1 m n = -r * T m n + sqA m * ei phi * T (ix c ((m : ℤ) - 1)) n - sqA n * ei (-phi) * T m (ix c ((n : ℤ) - 1)) ∧
    (gradDisplacement c T r phi).2 m n = sqA m * Complex.I * (r * ei phi) * T (ix c ((m : ℤ) - 1)) n + sqA n * Complex.I * (r * ei (-phi)) * T m (ix c ((n : ℤ) - 1)) := by
  unfold gradDisplacement
  dsimp only
  constructor
  · rw [forRange_map Prod.fst c _ _ (fun m A => forRange c A fun n A => upd2 A m n (-r * T m n + sqA m * ei phi * T (ix c ((m : ℤ) - 1)) n - sqA n * ei (-phi) * T m (ix c ((n : ℤ) - 1))))
      (fun m s => forRange_map Prod.fst c _ _ _ fun n s => rfl)]
    exact assign2 c (fun m n => -r * T m n + sqA m * ei phi * T (ix c ((m : ℤ) - 1)) n - sqA n * ei (-phi) * T m (ix c ((n : ℤ) - 1))) _ m hm n hn
  · rw [forRange_map Prod.snd c _ _ (fun m A => forRange c A fun n A => upd2 A m n (sqA m * Complex.I * (r * ei phi) * T (ix c ((m : ℤ) - 1)) n + sqA n * Complex.I * (r * ei (-phi)) * T m (ix c ((n : ℤ) - 1))))
      (fun m s => forRange_map Prod.snd c _ _ _ fun n s => rfl)]
    exact assign2 c (fun m n => sqA m * Complex.I * (r * ei phi) * T (ix c ((m : ℤ) - 1)) n + sqA n * Complex.I * (r * ei (-phi)) * T m (ix c ((n : ℤ) - 1))) _ m hm n hn

/-- reading an entry next to the diagonal, multiplied by the square root that vanishes on the edge -/
theorem root_prev {c m : ℕ} (A : ℕ → ℂ) (B : ℕ → ℂ) (h : ∀ i < c, A i = B i) (hm : m < c) : sqA m * A (ix c ((m : ℤ) - 1)) = root m * B (m - 1) := by
  rcases Nat.eq_zero_or_pos m with rfl | h0
  · rw [sqA_eq, root_zero, zero_mul, zero_mul]
  · rw [ix_pred h0, h _ (by omega), sqA_eq]

/-- **C49.** `grad_displacement` returns the derivatives of the entries in `r` and in `phi`. -/
theorem gradDisplacement_correct (r phi : ℝ) (c m n : ℕ) (hm : m < c) (hn : n < c) :
    HasDerivAt (fun s => displacement s phi c m n) ((gradDisplacement c (displacement r phi c) r phi).1 m n) r ∧
    HasDerivAt (fun s => displacement r s c m n) ((gradDisplacement c (displacement r phi c) r phi).2 m n) phi := by
  obtain ⟨e1, e2⟩ := gradDisplacement_entry c (displacement r phi c) r phi m n hm hn
  have a1 := root_prev (fun i => displacement r phi c i n) (fun i => dispA r phi i n) (fun i hi => displacement_amp r phi c i n hi hn) hm
  have a2 := root_prev (fun i => displacement r phi c m i) (fun i => dispA r phi m i) (fun i hi => displacement_amp r phi c m i hm hi) hn
  rw [e1, e2]
  simp only [displacement_amp _ _ c m n hm hn]
  have hC : HasDerivAt (fun _ : ℝ => dispC r) 0 phi := hasDerivAt_const _ _
  constructor
  · have h0 : HasDerivAt dispC (-r * dispC r) r := by
      have h : HasDerivAt (fun s : ℝ => Real.exp (-0.5 * s ^ 2)) (Real.exp (-0.5 * r ^ 2) * (-0.5 * (2 * r))) r := by
        have := (((hasDerivAt_id r).fun_pow 2).const_mul (-0.5 : ℝ)).exp
        simpa using this
      refine h.ofReal_comp.congr_deriv ?_
      unfold dispC; push_cast; ring
    refine (fockAmp2_deriv dispC (fun _ => dispR) (fun _ => dispR_symm) (fun s => dispY s phi) _ (-r) 0 rfl ![ei phi, -ei (-phi)] r h0 rfl
      (fun i j => hasDerivAt_const _ _) (fun i => ?_) m n).congr_deriv ?_
    · have h1 : ∀ z : ℂ, HasDerivAt (fun s : ℝ => (s : ℂ) * z) z r := fun z => by
        have := (HasDerivAt.ofReal_comp (hasDerivAt_id r)).mul_const z
        simpa using this
      fin_cases i
      · exact h1 _
      · exact (h1 _).fun_neg
    · simp only [Matrix.zero_apply, Matrix.cons_val_zero, Matrix.cons_val_one]
      change -r * dispA r phi m n + (ei phi * (root m * dispA r phi (m - 1) n) + -ei (-phi) * (root n * dispA r phi m (n - 1))) + _ = _
      linear_combination -ei phi * a1 + ei (-phi) * a2
  · refine (fockAmp2_deriv (fun _ => dispC r) (fun _ => dispR) (fun _ => dispR_symm) (fun s => dispY r s) _ 0 0 rfl ![Complex.I * (r * ei phi), Complex.I * (r * ei (-phi))] phi hC (by simp)
      (fun i j => hasDerivAt_const _ _) (fun i => ?_) m n).congr_deriv ?_
    · fin_cases i
      · refine ((hasDerivAt_ei phi).const_mul (r : ℂ)).congr_deriv ?_
        simp; ring
      · refine ((hasDerivAt_ei_neg phi).const_mul (r : ℂ)).fun_neg.congr_deriv ?_
        simp; ring
    · simp only [Matrix.zero_apply, Matrix.cons_val_zero, Matrix.cons_val_one]
      change 0 * dispA r phi m n + (Complex.I * (r * ei phi) * (root m * dispA r phi (m - 1) n) + Complex.I * (r * ei (-phi)) * (root n * dispA r phi m (n - 1))) + _ = _
      linear_combination -Complex.I * (r * ei phi) * a1 - Complex.I * (r * ei (-phi)) * a2

/-! ### squeezing -/

noncomputable def squR (r theta : ℝ) : Matrix (Fin 2) (Fin 2) ℂ :=
  !![-(ei theta * (Real.tanh r : ℂ)), (sech r : ℂ); (sech r : ℂ), ei (-theta) * (Real.tanh r : ℂ)]

noncomputable def squC (r : ℝ) : ℂ := ((Real.sqrt (sech r) : ℝ) : ℂ)

theorem squR_symm (r theta : ℝ) : (squR r theta).IsSymm := by
  ext i j; fin_cases i <;> fin_cases j <;> rfl

/-- the amplitudes of the squeezing -/
noncomputable def squA (r theta : ℝ) (m n : ℕ) : ℂ := fockAmp (squC r) (squR r theta) 0 ![m, n]

theorem squA_m (r theta : ℝ) (m n : ℕ) : root (m + 1) * squA r theta (m + 1) n =
    -(ei theta * (Real.tanh r : ℂ)) * (root m * squA r theta (m - 1) n) + (sech r : ℂ) * (root n * squA r theta m (n - 1)) := by
  have := fockAmp2_m (squC r) (squR r theta) (squR_symm r theta) 0 m n
  rw [show squR r theta 0 0 = -(ei theta * (Real.tanh r : ℂ)) from rfl, show squR r theta 0 1 = (sech r : ℂ) from rfl, show (0 : Fin 2 → ℂ) 0 = 0 from rfl] at this
  unfold squA; linear_combination this

theorem squA_n (r theta : ℝ) (m n : ℕ) : root (n + 1) * squA r theta m (n + 1) =
    (sech r : ℂ) * (root m * squA r theta (m - 1) n) + ei (-theta) * (Real.tanh r : ℂ) * (root n * squA r theta m (n - 1)) := by
  have := fockAmp2_n (squC r) (squR r theta) (squR_symm r theta) 0 m n
  rw [show squR r theta 1 0 = (sech r : ℂ) from rfl, show squR r theta 1 1 = ei (-theta) * (Real.tanh r : ℂ) from rfl, show (0 : Fin 2 → ℂ) 1 = 0 from rfl] at this
  unfold squA; linear_combination this

/-- **C49.** Squeezing conserves the parity of the photon number. -/
theorem squA_parity (r theta : ℝ) (m n : ℕ) (h : (m + n) % 2 ≠ 0) : squA r theta m n = 0 := by
  refine fockAmp_selection (W := ZMod 2) _ _ (squR_symm r theta) 0 (fun _ => 1) (fun _ _ _ => by decide) (fun i hi => absurd rfl hi) ![m, n] ?_
  rw [Fin.sum_univ_two]
  simp only [Matrix.cons_val_zero, Matrix.cons_val_one, nsmul_eq_mul, mul_one]
  rw [← Nat.cast_add, Ne, ZMod.natCast_eq_zero_iff]
  omega

theorem squeezing_amp (r theta : ℝ) (c m n : ℕ) (hm : m < c) (hn : n < c) : squeezing r theta c m n = squA r theta m n := by
  unfold squeezing
  have hconj : (starRingEnd ℂ) (ei theta * (Real.tanh r : ℂ)) = ei (-theta) * (Real.tanh r : ℂ) := by rw [map_mul, ei_conj, Complex.conj_ofReal]
  refine fill2 c (by omega) (fun m n => (m + n) % 2 = 0) (fun m n S => sqA (n - 1) / sqA n * (starRingEnd ℂ) (ei theta * (Real.tanh r : ℂ)) * S m (ix c ((n : ℤ) - 2)) +
    sqA m / sqA n * (sech r : ℂ) * S (ix c ((m : ℤ) - 1)) (n - 1)) _ (squA r theta) _ (fun m n A => rfl) ?_ ?_ m hm n hn
  · intro m hm n hn h
    have key := forRange_inv (fun j (S : Arr2) => (∀ m < 2 * j + 2, S m 0 = squA r theta m 0) ∧ ∀ m n, (m + n) % 2 ≠ 0 ∨ n ≠ 0 → S m n = 0) ((c - 1) / 2)
      (upd2 (fun _ _ => 0) 0 0 ((Real.sqrt (sech r) : ℝ) : ℂ))
      (fun j S => upd2 S (2 + 2 * j) 0 (sqA (2 + 2 * j - 1) / sqA (2 + 2 * j) * -(ei theta * (Real.tanh r : ℂ)) * S (2 + 2 * j - 2) 0))
      ⟨fun m hm => by
        rcases (show m = 0 ∨ m = 1 by omega) with rfl | rfl
        · unfold squA; rw [fockAmp2_zero]; simp [upd2, squC]
        · rw [squA_parity r theta 1 0 (by norm_num)]; simp [upd2],
      fun m n h => by unfold upd2; rw [if_neg (by omega)]⟩
      (fun j S hj hS => by
        refine ⟨fun m hm => ?_, fun m n h => ?_⟩
        · unfold upd2
          split_ifs with e
          · obtain ⟨rfl, _⟩ := e
            have := squA_m r theta (2 * j + 1) 0
            rw [root_zero, show 2 * j + 1 + 1 = 2 + 2 * j by omega] at this
            have hne := root_ne (show 0 < 2 + 2 * j by omega)
            rw [hS.1 _ (by omega), sqA_eq, sqA_eq]
            rw [show 2 + 2 * j - 1 = 2 * j + 1 by omega, show 2 + 2 * j - 2 = 2 * j + 1 - 1 by omega]
            field_simp
            linear_combination -this
          · by_cases hm2 : m < 2 * j + 2
            · exact hS.1 m hm2
            · obtain rfl : m = 2 * j + 3 := by
                have : m ≠ 2 + 2 * j := fun e' => e ⟨e', rfl⟩
                omega
              rw [hS.2 _ _ (.inl (by omega)), squA_parity _ _ _ _ (by omega)]
        · unfold upd2
          rw [if_neg (by omega)]
          exact hS.2 m n h)
    rcases h with rfl | h
    · exact key.1 m (by omega)
    · rw [squA_parity _ _ _ _ h]
      exact key.2 m n (.inl h)
  · intro m hm n hn h1 hal B hB
    have := squA_n r theta m (n - 1)
    rw [show n - 1 + 1 = n by omega] at this
    have hne := root_ne (show 0 < n by omega)
    have e1 : sqA (n - 1) * B m (ix c ((n : ℤ) - 2)) = root (n - 1) * squA r theta m (n - 1 - 1) := by
      rcases (show n = 1 ∨ 2 ≤ n by omega) with rfl | h2
      · rw [sqA_eq]; simp
      · rw [ix_pred2 h2, hB m hm (n - 2) (by omega) (.inr (.inr (.inr ⟨rfl, by omega⟩))), sqA_eq, show n - 1 - 1 = n - 2 by omega]
    have e2 : sqA m * B (ix c ((m : ℤ) - 1)) (n - 1) = root m * squA r theta (m - 1) (n - 1) := by
      rcases Nat.eq_zero_or_pos m with rfl | hm0
      · rw [sqA_eq]; simp
      · rw [ix_pred hm0, hB (m - 1) (by omega) (n - 1) (by omega) (.inr (.inr (.inl (by omega)))), sqA_eq]
    rw [hconj, sqA_eq n]
    field_simp
    linear_combination (ei (-theta) * (Real.tanh r : ℂ)) * e1 + (sech r : ℂ) * e2 - this

theorem sech_cosh (r : ℝ) : sech r * Real.cosh r = 1 := by unfold sech; have := (Real.cosh_pos r).ne'; field_simp

theorem sech_ne (r : ℝ) : sech r ≠ 0 := by unfold sech; have := (Real.cosh_pos r).ne'; positivity

theorem sech_pos (r : ℝ) : 0 < sech r := by unfold sech; have := Real.cosh_pos r; positivity

theorem tanh_cosh (r : ℝ) : Real.tanh r * Real.cosh r = Real.sinh r := by
  rw [Real.tanh_eq_sinh_div_cosh]; have := (Real.cosh_pos r).ne'; field_simp

theorem cosh_sinh (r : ℝ) : Real.cosh r * Real.cosh r - Real.sinh r * Real.sinh r = 1 := by have := Real.cosh_sq r; nlinarith

theorem ofReal_sech (r : ℝ) : (sech r : ℂ) = 1 / (Real.cosh r : ℂ) := by unfold sech; push_cast; rfl

theorem ofReal_tanh' (r : ℝ) : (Real.tanh r : ℂ) = (Real.sinh r : ℂ) / (Real.cosh r : ℂ) := by rw [Real.tanh_eq_sinh_div_cosh, Complex.ofReal_div]

theorem ofReal_cosh_sq (r : ℝ) : (Real.cosh r : ℂ) * (Real.cosh r : ℂ) - (Real.sinh r : ℂ) * (Real.sinh r : ℂ) = 1 := by
  rw [← Complex.ofReal_mul, ← Complex.ofReal_mul, ← Complex.ofReal_sub, cosh_sinh, Complex.ofReal_one]

theorem ofReal_cosh_ne (r : ℝ) : (Real.cosh r : ℂ) ≠ 0 := by
  rw [Ne, Complex.ofReal_eq_zero]; exact (Real.cosh_pos r).ne'

/-- **C49.** `squeezing(r, theta, cutoff)` is the corner of the squeezing operator, for every cutoff: the array agrees with every solution of the Heisenberg relations
with that vacuum amplitude. -/
theorem squeezing_correct (r theta : ℝ) (S : ℕ → ℕ → ℂ) (hS : IsSqueezing r (Complex.exp (Complex.I * theta)) S) (c m n : ℕ) (hm : m < c) (hn : n < c) :
    squeezing r theta c m n = S m n := by
  rw [squeezing_amp r theta c m n hm hn]
  symm
  have hch := ofReal_cosh_ne r
  have hcs := ofReal_cosh_sq r
  have hee := ei_mul_neg theta
  have hc : (starRingEnd ℂ) (Complex.exp (Complex.I * theta)) = ei (-theta) := ei_conj theta
  refine fockAmp_unique (squC r) (squR r theta) (squR_symm r theta) 0 (fun k => S (k 0) (k 1)) ?_ ?_ ![m, n]
  · change S 0 0 = _
    rw [hS.vac, squC, sech]
    congr 1
    rw [Real.sqrt_div zero_le_one, Real.sqrt_one]
  · intro k i
    rw [Fin.sum_univ_two]
    have h1 := hS.ann (k 0) (k 1)
    have h2 := hS.cre (k 0) (k 1)
    rw [hc] at h2
    change _ = _ - ei theta * _ * _ at h1
    fin_cases i
    · simp [s2_0, s2_1, squR]
      rw [ofReal_sech, show Complex.tanh (r : ℂ) = (Real.sinh r : ℂ) / (Real.cosh r : ℂ) by rw [← Complex.ofReal_tanh, ofReal_tanh']]
      field_simp
      rw [h2] at h1
      apply mul_left_cancel₀ hch
      linear_combination h1 + root (k 0 + 1) * S (k 0 + 1) (k 1) * hcs - root (k 0 + 1) * S (k 0 + 1) (k 1) * (Real.sinh r : ℂ) ^ 2 * hee
    · simp [s2_0, s2_1, squR]
      rw [ofReal_sech, show Complex.tanh (r : ℂ) = (Real.sinh r : ℂ) / (Real.cosh r : ℂ) by rw [← Complex.ofReal_tanh, ofReal_tanh']]
      field_simp
      rw [h1] at h2
      apply mul_left_cancel₀ hch
      linear_combination h2 + root (k 1 + 1) * S (k 0) (k 1 + 1) * hcs - root (k 1 + 1) * S (k 0) (k 1 + 1) * (Real.sinh r : ℂ) ^ 2 * hee

/-- The squeezing operator exists. -/
theorem squeezing_exists (r theta : ℝ) : IsSqueezing r (Complex.exp (Complex.I * theta)) (squA r theta) := by
  have hch := ofReal_cosh_ne r
  have hcs := ofReal_cosh_sq r
  have hee := ei_mul_neg theta
  have hc : (starRingEnd ℂ) (Complex.exp (Complex.I * theta)) = ei (-theta) := ei_conj theta
  refine ⟨?_, fun m n => ?_, fun m n => ?_⟩
  · unfold squA
    rw [fockAmp2_zero, squC, sech, Real.sqrt_div zero_le_one, Real.sqrt_one]
  · rw [squA_m, squA_n, ofReal_sech, ofReal_tanh']
    change _ = _ - ei theta * _ * _
    field_simp
    linear_combination (-root n * squA r theta m (n - 1)) * hcs + (Real.sinh r : ℂ) ^ 2 * root n * squA r theta m (n - 1) * hee
  · rw [squA_m, squA_n, ofReal_sech, ofReal_tanh', hc]
    field_simp
    linear_combination (-root m * squA r theta (m - 1) n) * hcs + (Real.sinh r : ℂ) ^ 2 * root m * squA r theta (m - 1) n * hee

theorem gradSqueezing_entry (c : ℕ) (T : Arr2) (r phi : ℝ) (m n : ℕ) (hm : m < c) (hn : n < c) :
    (gradSqueezing c T r phi).1 m n =
      -0.5 * (Real.tanh r : ℂ) * T m n - (sech r : ℂ) * (Real.tanh r : ℂ) * sqA m * sqA n * T (ix c ((m : ℤ) - 1)) (ix c ((n : ℤ) - 1))
        - 0.5 * ei phi * (sech r : ℂ) ^ 2 * sqA m * sqA (ix c ((m : ℤ) - 1)) * T (ix c ((m : ℤ) - 2)) n
        + 0.5 * ei (-phi) * (sech r : ℂ) ^ 2 * sqA n * sqA (ix c ((n : ℤ) - 1)) * T m (ix c ((n : ℤ) - 2)) ∧
    (gradSqueezing c T r phi).2 m n =
      -(0.5 * Complex.I) * ei phi * (Real.tanh r : ℂ) * sqA m * sqA (ix c ((m : ℤ) - 1)) * T (ix c ((m : ℤ) - 2)) n
          - 0.5 * Complex.I * ei (-phi) * (Real.tanh r : ℂ) * sqA n * sqA (ix c ((n : ℤ) - 1)) * T m (ix c ((n : ℤ) - 2)) := by
  unfold gradSqueezing
  dsimp only
  constructor
  · rw [forRange_map Prod.fst c _ _ (fun m A => forRange c A fun n A => upd2 A m n (-0.5 * (Real.tanh r : ℂ) * T m n - (sech r : ℂ) * (Real.tanh r : ℂ) * sqA m * sqA n * T (ix c ((m : ℤ) - 1)) (ix c ((n : ℤ) - 1))
        - 0.5 * ei phi * (sech r : ℂ) ^ 2 * sqA m * sqA (ix c ((m : ℤ) - 1)) * T (ix c ((m : ℤ) - 2)) n
        + 0.5 * ei (-phi) * (sech r : ℂ) ^ 2 * sqA n * sqA (ix c ((n : ℤ) - 1)) * T m (ix c ((n : ℤ) - 2))))
      (fun m s => forRange_map Prod.fst c _ _ _ fun n s => rfl)]
    exact assign2 c (fun m n => -0.5 * (Real.tanh r : ℂ) * T m n - (sech r : ℂ) * (Real.tanh r : ℂ) * sqA m * sqA n * T (ix c ((m : ℤ) - 1)) (ix c ((n : ℤ) - 1))
        - 0.5 * ei phi * (sech r : ℂ) ^ 2 * sqA m * sqA (ix c ((m : ℤ) - 1)) * T (ix c ((m : ℤ) - 2)) n
        + 0.5 * ei (-phi) * (sech r : ℂ) ^ 2 * sqA n * sqA (ix c ((n : ℤ) - 1)) * T m (ix c ((n : ℤ) - 2))) _ m hm n hn
  · rw [forRange_map Prod.snd c _ _ (fun m A => forRange c A fun n A => upd2 A m n (-(0.5 * Complex.I) * ei phi * (Real.tanh r : ℂ) * sqA m * sqA (ix c ((m : ℤ) - 1)) * T (ix c ((m : ℤ) - 2)) n
          - 0.5 * Complex.I * ei (-phi) * (Real.tanh r : ℂ) * sqA n * sqA (ix c ((n : ℤ) - 1)) * T m (ix c ((n : ℤ) - 2))))
      (fun m s => forRange_map Prod.snd c _ _ _ fun n s => rfl)]
    exact assign2 c (fun m n => -(0.5 * Complex.I) * ei phi * (Real.tanh r : ℂ) * sqA m * sqA (ix c ((m : ℤ) - 1)) * T (ix c ((m : ℤ) - 2)) n
          - 0.5 * Complex.I * ei (-phi) * (Real.tanh r : ℂ) * sqA n * sqA (ix c ((n : ℤ) - 1)) * T m (ix c ((n : ℤ) - 2))) _ m hm n hn

theorem root_prev2 {c m : ℕ} (A : ℕ → ℂ) (B : ℕ → ℂ) (h : ∀ i < c, A i = B i) (hm : m < c) :
    sqA m * (sqA (ix c ((m : ℤ) - 1)) * A (ix c ((m : ℤ) - 2))) = root m * (root (m - 1) * B (m - 2)) := by
  rcases (show m = 0 ∨ m = 1 ∨ 2 ≤ m by omega) with rfl | rfl | h0
  · rw [sqA_eq, root_zero, zero_mul, zero_mul]
  · rw [ix_pred (by omega), sqA_eq, sqA_eq, root_zero]; simp
  · rw [ix_pred (by omega), ix_pred2 h0, h _ (by omega), sqA_eq, sqA_eq]

theorem hasDerivAt_sech (r : ℝ) : HasDerivAt sech (-(sech r * Real.tanh r)) r := by
  have h := (hasDerivAt_const r (1 : ℝ)).fun_div (Real.hasDerivAt_cosh r) (Real.cosh_pos r).ne'
  refine h.congr_deriv ?_
  rw [Real.tanh_eq_sinh_div_cosh, sech]
  have := (Real.cosh_pos r).ne'
  field_simp
  ring

theorem hasDerivAt_tanh' (r : ℝ) : HasDerivAt Real.tanh (sech r ^ 2) r := by
  have h := (Real.hasDerivAt_sinh r).fun_div (Real.hasDerivAt_cosh r) (Real.cosh_pos r).ne'
  have e : Real.tanh = fun x => Real.sinh x / Real.cosh x := funext Real.tanh_eq_sinh_div_cosh
  rw [e]
  refine h.congr_deriv ?_
  have := (Real.cosh_pos r).ne'
  rw [cosh_sinh, sech]
  field_simp

/-- **C49.** `grad_squeezing` returns the derivatives of the entries in `r` and in the angle. -/
theorem gradSqueezing_correct (r theta : ℝ) (c m n : ℕ) (hm : m < c) (hn : n < c) :
    HasDerivAt (fun s => squeezing s theta c m n) ((gradSqueezing c (squeezing r theta c) r theta).1 m n) r ∧
    HasDerivAt (fun s => squeezing r s c m n) ((gradSqueezing c (squeezing r theta c) r theta).2 m n) theta := by
  obtain ⟨e1, e2⟩ := gradSqueezing_entry c (squeezing r theta c) r theta m n hm hn
  have a1 := root_prev2 (fun i => squeezing r theta c i n) (fun i => squA r theta i n) (fun i hi => squeezing_amp r theta c i n hi hn) hm
  have a2 := root_prev2 (fun i => squeezing r theta c m i) (fun i => squA r theta m i) (fun i hi => squeezing_amp r theta c m i hm hi) hn
  have a3 : sqA m * (sqA n * squeezing r theta c (ix c ((m : ℤ) - 1)) (ix c ((n : ℤ) - 1))) = root m * (root n * squA r theta (m - 1) (n - 1)) := by
    have := root_prev (fun i => sqA n * squeezing r theta c i (ix c ((n : ℤ) - 1))) (fun i => root n * squA r theta i (n - 1)) (fun i hi =>
      root_prev (fun j => squeezing r theta c i j) (fun j => squA r theta i j) (fun j hj => squeezing_amp r theta c i j hi hj) hn) hm
    exact this
  rw [e1, e2]
  simp only [squeezing_amp _ _ c m n hm hn] at *
  have hs := hasDerivAt_sech r
  have ht := hasDerivAt_tanh' r
  constructor
  · have h0 : HasDerivAt squC (-(1 / 2) * (Real.tanh r : ℂ) * squC r) r := by
      have h := (hs.sqrt (sech_ne r)).ofReal_comp
      refine h.congr_deriv ?_
      unfold squC
      rw [← sub_eq_zero]
      have h2 : Real.sqrt (sech r) ≠ 0 := by rw [Ne, Real.sqrt_eq_zero (sech_pos r).le]; exact sech_ne r
      have h3 : -(sech r * Real.tanh r) / (2 * Real.sqrt (sech r)) = -(1 / 2) * Real.tanh r * Real.sqrt (sech r) := by
        field_simp
        rw [Real.sq_sqrt (sech_pos r).le]; ring
      rw [h3]; push_cast; ring
    refine (fockAmp2_deriv squC (fun s => squR s theta) (fun s => squR_symm s theta) (fun _ => 0) _ (-(1 / 2) * (Real.tanh r : ℂ))
      !![-(ei theta * (sech r : ℂ) ^ 2), -((sech r : ℂ) * (Real.tanh r : ℂ)); -((sech r : ℂ) * (Real.tanh r : ℂ)), ei (-theta) * (sech r : ℂ) ^ 2] ?_ 0 r h0 rfl
      (fun i j => ?_) (fun i => hasDerivAt_const _ _) m n).congr_deriv ?_
    · ext i j; fin_cases i <;> fin_cases j <;> rfl
    · have hs' : HasDerivAt (fun s : ℝ => (sech s : ℂ)) (-((sech r : ℂ) * (Real.tanh r : ℂ))) r := hs.ofReal_comp.congr_deriv (by push_cast; rfl)
      have ht' : HasDerivAt (fun s : ℝ => (Real.tanh s : ℂ)) ((sech r : ℂ) ^ 2) r := ht.ofReal_comp.congr_deriv (by push_cast; rfl)
      fin_cases i <;> fin_cases j
      · exact (ht'.const_mul _).fun_neg
      · exact hs'
      · exact hs'
      · exact ht'.const_mul _
    · change -(1 / 2) * (Real.tanh r : ℂ) * squA r theta m n + (0 * (root m * squA r theta (m - 1) n) + 0 * (root n * squA r theta m (n - 1))) +
        (-(ei theta * (sech r : ℂ) ^ 2) * (root m * (root (m - 1) * squA r theta (m - 2) n)) / 2 + -((sech r : ℂ) * (Real.tanh r : ℂ)) * (root m * (root n * squA r theta (m - 1) (n - 1))) +
          ei (-theta) * (sech r : ℂ) ^ 2 * (root n * (root (n - 1) * squA r theta m (n - 2))) / 2) = _
      linear_combination ei theta * (sech r : ℂ) ^ 2 / 2 * a1 - ei (-theta) * (sech r : ℂ) ^ 2 / 2 * a2 + (sech r : ℂ) * (Real.tanh r : ℂ) * a3
  · refine (fockAmp2_deriv (fun _ => squC r) (fun s => squR r s) (fun s => squR_symm r s) (fun _ => 0) 0 0
      !![-(Complex.I * ei theta * (Real.tanh r : ℂ)), 0; 0, -(Complex.I * ei (-theta) * (Real.tanh r : ℂ))] ?_ 0 theta (hasDerivAt_const _ _) (by simp)
      (fun i j => ?_) (fun i => hasDerivAt_const _ _) m n).congr_deriv ?_
    · ext i j; fin_cases i <;> fin_cases j <;> rfl
    · fin_cases i <;> fin_cases j
      · exact ((hasDerivAt_ei theta).mul_const _).fun_neg
      · exact hasDerivAt_const _ _
      · exact hasDerivAt_const _ _
      · refine ((hasDerivAt_ei_neg theta).mul_const _).congr_deriv ?_
        simp
    · change 0 * squA r theta m n + (0 * (root m * squA r theta (m - 1) n) + 0 * (root n * squA r theta m (n - 1))) +
        (-(Complex.I * ei theta * (Real.tanh r : ℂ)) * (root m * (root (m - 1) * squA r theta (m - 2) n)) / 2 + 0 * (root m * (root n * squA r theta (m - 1) (n - 1))) +
          -(Complex.I * ei (-theta) * (Real.tanh r : ℂ)) * (root n * (root (n - 1) * squA r theta m (n - 2))) / 2) = _
      linear_combination Complex.I * ei theta * (Real.tanh r : ℂ) / 2 * a1 + Complex.I * ei (-theta) * (Real.tanh r : ℂ) / 2 * a2

end Verif.Props
