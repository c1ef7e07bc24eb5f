/-
C49: the interferometers of thewalrus/fock_gradients.py compose and are unitary.
-/
import Verif.Props.FockGates3
import Mathlib.Algebra.BigOperators.NatAntidiagonal
import Mathlib.LinearAlgebra.UnitaryGroup

set_option linter.unusedSimpArgs false
set_option linter.unusedSectionVars false

namespace Verif.Props
open Verif Verif.Model Verif.Model.FG Verif.Spec Verif.Lemmas Finset

theorem antidiag_lower1 (N : ℕ) (f g : ℕ → ℕ → ℂ) :
    ∑ x ∈ antidiagonal (N + 1), root x.1 * f (x.1 - 1) x.2 * g x.1 x.2 = ∑ x ∈ antidiagonal N, f x.1 x.2 * (root (x.1 + 1) * g (x.1 + 1) x.2) := by
  rw [Finset.Nat.sum_antidiagonal_succ]
  simp only [root_zero, zero_mul, zero_add, Nat.add_sub_cancel]
  exact Finset.sum_congr rfl fun x _ => by ring

theorem antidiag_lower2 (N : ℕ) (f g : ℕ → ℕ → ℂ) :
    ∑ x ∈ antidiagonal (N + 1), root x.2 * f x.1 (x.2 - 1) * g x.1 x.2 = ∑ x ∈ antidiagonal N, f x.1 x.2 * (root (x.2 + 1) * g x.1 (x.2 + 1)) := by
  rw [Finset.Nat.sum_antidiagonal_succ']
  simp only [root_zero, zero_mul, zero_add, add_zero, Nat.add_sub_cancel]
  exact Finset.sum_congr rfl fun x _ => by ring

/-- the product of two interferometers -/
noncomputable def intMul (U V : Matrix (Fin 2) (Fin 2) ℂ) (m n p q : ℕ) : ℂ := ∑ x ∈ antidiagonal (p + q), intA U m n x.1 x.2 * intA V x.1 x.2 p q

theorem intMul_lower (U V : Matrix (Fin 2) (Fin 2) ℂ) (m n p q : ℕ) :
    ∑ x ∈ antidiagonal (p + q), root x.1 * intA U m n (x.1 - 1) x.2 * intA V x.1 x.2 p q =
      V 0 0 * (root p * intMul U V m n (p - 1) q) + V 0 1 * (root q * intMul U V m n p (q - 1)) ∧
    ∑ x ∈ antidiagonal (p + q), root x.2 * intA U m n x.1 (x.2 - 1) * intA V x.1 x.2 p q =
      V 1 0 * (root p * intMul U V m n (p - 1) q) + V 1 1 * (root q * intMul U V m n p (q - 1)) := by
  rcases Nat.eq_zero_or_pos (p + q) with h | h
  · obtain ⟨rfl, rfl⟩ : p = 0 ∧ q = 0 := by omega
    simp
  · obtain ⟨N, hN⟩ : ∃ N, p + q = N + 1 := ⟨p + q - 1, by omega⟩
    have e1 : root p * intMul U V m n (p - 1) q = ∑ x ∈ antidiagonal N, intA U m n x.1 x.2 * (root p * intA V x.1 x.2 (p - 1) q) := by
      rcases Nat.eq_zero_or_pos p with rfl | h0
      · simp
      · unfold intMul
        rw [show p - 1 + q = N by omega, mul_sum]
        exact sum_congr rfl fun x _ => by ring
    have e2 : root q * intMul U V m n p (q - 1) = ∑ x ∈ antidiagonal N, intA U m n x.1 x.2 * (root q * intA V x.1 x.2 p (q - 1)) := by
      rcases Nat.eq_zero_or_pos q with rfl | h0
      · simp
      · unfold intMul
        rw [show p + (q - 1) = N by omega, mul_sum]
        exact sum_congr rfl fun x _ => by ring
    rw [hN, antidiag_lower1 N (fun a b => intA U m n a b) (fun a b => intA V a b p q), antidiag_lower2 N (fun a b => intA U m n a b) (fun a b => intA V a b p q), e1, e2]
    simp only [intA_m, intA_n, mul_sum, ← sum_add_distrib]
    exact ⟨sum_congr rfl fun x _ => by ring, sum_congr rfl fun x _ => by ring⟩

/-- **C49.** The interferometers of a product of matrices is the product of the interferometers. -/
theorem interferometer2_mul (U V : Matrix (Fin 2) (Fin 2) ℂ) : IsInterferometer2 (U * V) (fun m n p q => ∑ x ∈ antidiagonal (p + q), intA U m n x.1 x.2 * intA V x.1 x.2 p q) := by
  have hl := fun m n p q => intMul_lower U V m n p q
  change IsInterferometer2 (U * V) (intMul U V)
  refine ⟨?_, fun m n p q => ?_, fun m n p q => ?_, fun m n p q => ?_, fun m n p q => ?_⟩
  · unfold intMul intA; simp [fockAmp4_zero]
  · obtain ⟨h1, h2⟩ := hl m n p q
    have : root (m + 1) * intMul U V (m + 1) n p q = U 0 0 * ∑ x ∈ antidiagonal (p + q), root x.1 * intA U m n (x.1 - 1) x.2 * intA V x.1 x.2 p q +
        U 0 1 * ∑ x ∈ antidiagonal (p + q), root x.2 * intA U m n x.1 (x.2 - 1) * intA V x.1 x.2 p q := by
      unfold intMul
      rw [mul_sum, mul_sum, mul_sum, ← sum_add_distrib]
      refine sum_congr rfl fun x _ => ?_
      rw [← mul_assoc, intA_m]; ring
    rw [this, h1, h2, Matrix.mul_apply, Matrix.mul_apply, Fin.sum_univ_two, Fin.sum_univ_two]; ring
  · obtain ⟨h1, h2⟩ := hl m n p q
    have : root (n + 1) * intMul U V m (n + 1) p q = U 1 0 * ∑ x ∈ antidiagonal (p + q), root x.1 * intA U m n (x.1 - 1) x.2 * intA V x.1 x.2 p q +
        U 1 1 * ∑ x ∈ antidiagonal (p + q), root x.2 * intA U m n x.1 (x.2 - 1) * intA V x.1 x.2 p q := by
      unfold intMul
      rw [mul_sum, mul_sum, mul_sum, ← sum_add_distrib]
      refine sum_congr rfl fun x _ => ?_
      rw [← mul_assoc, intA_n]; ring
    rw [this, h1, h2, Matrix.mul_apply, Matrix.mul_apply, Fin.sum_univ_two, Fin.sum_univ_two]; ring
  · have : root (p + 1) * intMul U V m n (p + 1) q = V 0 0 * ∑ x ∈ antidiagonal (p + q + 1), root x.1 * intA V (x.1 - 1) x.2 p q * intA U m n x.1 x.2 +
        V 1 0 * ∑ x ∈ antidiagonal (p + q + 1), root x.2 * intA V x.1 (x.2 - 1) p q * intA U m n x.1 x.2 := by
      unfold intMul
      rw [show p + 1 + q = p + q + 1 by omega, mul_sum, mul_sum, mul_sum, ← sum_add_distrib]
      refine sum_congr rfl fun x _ => ?_
      rw [mul_left_comm, intA_p]; ring
    rw [this, antidiag_lower1 _ (fun a b => intA V a b p q) (fun a b => intA U m n a b), antidiag_lower2 _ (fun a b => intA V a b p q) (fun a b => intA U m n a b)]
    simp only [intA_p, intA_q]
    unfold intMul
    rw [Matrix.mul_apply, Matrix.mul_apply, Fin.sum_univ_two, Fin.sum_univ_two]
    simp only [mul_sum, ← sum_add_distrib]
    exact sum_congr rfl fun x _ => by ring
  · have : root (q + 1) * intMul U V m n p (q + 1) = V 0 1 * ∑ x ∈ antidiagonal (p + q + 1), root x.1 * intA V (x.1 - 1) x.2 p q * intA U m n x.1 x.2 +
        V 1 1 * ∑ x ∈ antidiagonal (p + q + 1), root x.2 * intA V x.1 (x.2 - 1) p q * intA U m n x.1 x.2 := by
      unfold intMul
      rw [show p + (q + 1) = p + q + 1 by omega, mul_sum, mul_sum, mul_sum, ← sum_add_distrib]
      refine sum_congr rfl fun x _ => ?_
      rw [mul_left_comm, intA_q]; ring
    rw [this, antidiag_lower1 _ (fun a b => intA V a b p q) (fun a b => intA U m n a b), antidiag_lower2 _ (fun a b => intA V a b p q) (fun a b => intA U m n a b)]
    simp only [intA_p, intA_q]
    unfold intMul
    rw [Matrix.mul_apply, Matrix.mul_apply, Fin.sum_univ_two, Fin.sum_univ_two]
    simp only [mul_sum, ← sum_add_distrib]
    exact sum_congr rfl fun x _ => by ring

/-- The adjoint of an interferometer. -/
theorem interferometer2_adjoint (U : Matrix (Fin 2) (Fin 2) ℂ) : IsInterferometer2 U.conjTranspose (fun m n p q => (starRingEnd ℂ) (intA U p q m n)) := by
  have hroot : ∀ k, (starRingEnd ℂ) (root k) = root k := fun k => by unfold root; exact Complex.conj_ofReal _
  refine ⟨?_, fun m n p q => ?_, fun m n p q => ?_, fun m n p q => ?_, fun m n p q => ?_⟩
  · unfold intA; rw [fockAmp4_zero]; simp
  · have := congrArg (starRingEnd ℂ) (intA_p U p q m n)
    simp only [map_mul, map_add, hroot] at this
    rw [this]; rfl
  · have := congrArg (starRingEnd ℂ) (intA_q U p q m n)
    simp only [map_mul, map_add, hroot] at this
    rw [this]; rfl
  · have := congrArg (starRingEnd ℂ) (intA_m U p q m n)
    simp only [map_mul, map_add, hroot] at this
    rw [this]; rfl
  · have := congrArg (starRingEnd ℂ) (intA_n U p q m n)
    simp only [map_mul, map_add, hroot] at this
    rw [this]; rfl

/-- The identity interferometer. -/
theorem interferometer2_one : IsInterferometer2 1 (fun m n p q => if m = p ∧ n = q then (1 : ℂ) else 0) := by
  refine ⟨by simp, fun m n p q => ?_, fun m n p q => ?_, fun m n p q => ?_, fun m n p q => ?_⟩
  · rcases Nat.eq_zero_or_pos p with rfl | h
    · simp
    · simp [show (m + 1 = p ↔ m = p - 1) by omega]
      split_ifs with h1
      · rw [h1.1, show p - 1 + 1 = p by omega]
      · rfl
  · rcases Nat.eq_zero_or_pos q with rfl | h
    · simp
    · simp [show (n + 1 = q ↔ n = q - 1) by omega]
      split_ifs with h1
      · rw [h1.2, show q - 1 + 1 = q by omega]
      · rfl
  · rcases Nat.eq_zero_or_pos m with rfl | h
    · simp
    · simp [show (m = p + 1 ↔ m - 1 = p) by omega]
      split_ifs with h1
      · rw [← h1.1, show m - 1 + 1 = m by omega]
      · rfl
  · rcases Nat.eq_zero_or_pos n with rfl | h
    · simp
    · simp [show (n = q + 1 ↔ n - 1 = q) by omega]
      split_ifs with h1
      · rw [← h1.2, show n - 1 + 1 = n by omega]
      · rfl

/-- **C49.** The interferometer of a unitary matrix preserves the inner product of the columns. -/
theorem intA_unitary (U : Matrix (Fin 2) (Fin 2) ℂ) (hU : U.conjTranspose * U = 1) (m n p q : ℕ) :
    ∑ x ∈ antidiagonal (p + q), (starRingEnd ℂ) (intA U x.1 x.2 m n) * intA U x.1 x.2 p q = if m = p ∧ n = q then 1 else 0 := by
  have h1 := intA_unique (U.conjTranspose * U) _ (interferometer2_mul U.conjTranspose U) m n p q
  rw [hU] at h1
  have h2 := intA_unique 1 _ interferometer2_one m n p q
  rw [h2, ← h1]
  refine sum_congr rfl fun x _ => ?_
  rw [intA_unique _ _ (interferometer2_adjoint U)]

/-- sums over a box and over the photons of a sector -/
theorem box_sum (c : ℕ) (f : ℕ → ℕ → ℂ) (N : ℕ) (hN : N < c) (hf : ∀ a b, a + b ≠ N → f a b = 0) :
    ∑ a ∈ range c, ∑ b ∈ range c, f a b = ∑ x ∈ antidiagonal N, f x.1 x.2 := by
  rw [← sum_product', ← sum_filter_add_sum_filter_not (range c ×ˢ range c) (fun x => x.1 + x.2 = N)]
  rw [sum_eq_zero (s := (range c ×ˢ range c).filter fun x => ¬ x.1 + x.2 = N) (fun x hx => hf _ _ (mem_filter.mp hx).2), add_zero]
  refine sum_congr ?_ fun _ _ => rfl
  ext x
  simp only [mem_filter, mem_product, mem_range, mem_antidiagonal]
  exact ⟨fun h => h.2, fun h => ⟨⟨by omega, by omega⟩, h⟩⟩

theorem beamsplitterU_unitary (theta phi : ℝ) : (beamsplitterU theta phi).conjTranspose * beamsplitterU theta phi = 1 := by
  have h1 : (Real.cos theta : ℂ) ^ 2 + (Real.sin theta : ℂ) ^ 2 = 1 := by
    have := Real.sin_sq_add_cos_sq theta
    rw [add_comm]; exact_mod_cast this
  have hee := ei_mul_neg phi
  rw [beamsplitterU_eq]
  ext i j
  rw [Matrix.mul_apply, Fin.sum_univ_two]
  simp only [Matrix.conjTranspose_apply]
  fin_cases i <;> fin_cases j <;>
    simp only [Matrix.of_apply, Matrix.cons_val', Matrix.cons_val_zero, Matrix.cons_val_one, Matrix.cons_val_fin_one, Fin.zero_eta, Fin.mk_one, RCLike.star_def, map_mul, map_neg,
      ei_conj, Complex.conj_ofReal, neg_neg, Fin.isValue]
  · change _ = (1 : ℂ)
    linear_combination h1 + (Real.sin theta : ℂ) ^ 2 * hee
  · change _ = (0 : ℂ)
    ring
  · change _ = (0 : ℂ)
    ring
  · change _ = (1 : ℂ)
    linear_combination h1 + (Real.sin theta : ℂ) ^ 2 * hee

theorem mzgateU_unitary (theta phi : ℝ) : (mzgateU theta phi).conjTranspose * mzgateU theta phi = 1 := by
  have hv := ei_mul_neg theta
  have hu := ei_mul_neg phi
  have hI := Complex.I_mul_I
  rw [mzgateU_eq]
  ext i j
  rw [Matrix.mul_apply, Fin.sum_univ_two]
  simp only [Matrix.conjTranspose_apply]
  have hh : (starRingEnd ℂ) (0.5 : ℂ) = 0.5 := by rw [show (0.5 : ℂ) = ((0.5 : ℝ) : ℂ) by push_cast; norm_num, Complex.conj_ofReal]
  fin_cases i <;> fin_cases j <;>
    simp only [Matrix.of_apply, Matrix.cons_val', Matrix.cons_val_zero, Matrix.cons_val_one, Matrix.cons_val_fin_one, Fin.zero_eta, Fin.mk_one, RCLike.star_def, map_mul, map_neg,
      map_add, map_sub, map_one, ei_conj, Complex.conj_I, hh, Fin.isValue]
  · change _ = (1 : ℂ)
    set v := ei theta; set v' := ei (-theta); set u := ei phi; set u' := ei (-phi)
    linear_combination (1/4) * (v'-1) * (v-1) * hu + (1/4) * (1 + v') * (1 + v) * hu - (1/4) * u * u' * (1+v')*(1+v) * (hI) + (1/2) * hv
  · change _ = (0 : ℂ)
    set v := ei theta; set v' := ei (-theta); set u := ei phi; set u' := ei (-phi)
    linear_combination (1/2) * Complex.I * u' * hv
  · change _ = (0 : ℂ)
    set v := ei theta; set v' := ei (-theta); set u := ei phi; set u' := ei (-phi)
    linear_combination (-1/2) * Complex.I * u * hv
  · change _ = (1 : ℂ)
    set v := ei theta; set v' := ei (-theta); set u := ei phi; set u' := ei (-phi)
    linear_combination -(1/4) * (1 + v') * (1 + v) * hI + (1/2) * hv

theorem corner_unitary (U : Matrix (Fin 2) (Fin 2) ℂ) (hU : U.conjTranspose * U = 1) (c : ℕ) (Z : Arr4)
    (hZ : ∀ m < c, ∀ n < c, ∀ p < c, ∀ q < c, Z m n p q = intA U m n p q) (m n p q : ℕ) (h1 : m + n < c) (h2 : p + q < c) :
    ∑ a ∈ range c, ∑ b ∈ range c, (starRingEnd ℂ) (Z a b m n) * Z a b p q = if m = p ∧ n = q then 1 else 0 := by
  rw [← intA_unitary U hU, ← box_sum c (fun a b => (starRingEnd ℂ) (intA U a b m n) * intA U a b p q) (p + q) h2
    (fun a b hab => by rw [intA_selection U a b p q hab, mul_zero])]
  refine sum_congr rfl fun a ha => sum_congr rfl fun b hb => ?_
  rw [mem_range] at ha hb
  rw [hZ a ha b hb m (by omega) n (by omega), hZ a ha b hb p (by omega) q (by omega)]

/-- **C49.** The columns of `beamsplitter(theta, phi, cutoff)` with fewer than `cutoff` photons are orthonormal. -/
theorem beamsplitter_unitary (theta phi : ℝ) (c m n p q : ℕ) (h1 : m + n < c) (h2 : p + q < c) :
    ∑ a ∈ range c, ∑ b ∈ range c, (starRingEnd ℂ) (beamsplitter theta phi c a b m n) * beamsplitter theta phi c a b p q = if m = p ∧ n = q then 1 else 0 :=
  corner_unitary _ (beamsplitterU_unitary theta phi) c _ (fun m hm n hn p hp q hq => beamsplitter_amp theta phi c m n p q hm hn hp hq) m n p q h1 h2

/-- **C49.** The columns of `mzgate(theta, phi, cutoff)` with fewer than `cutoff` photons are orthonormal. -/
theorem mzgate_unitary (theta phi : ℝ) (c m n p q : ℕ) (h1 : m + n < c) (h2 : p + q < c) :
    ∑ a ∈ range c, ∑ b ∈ range c, (starRingEnd ℂ) (mzgate theta phi c a b m n) * mzgate theta phi c a b p q = if m = p ∧ n = q then 1 else 0 :=
  corner_unitary _ (mzgateU_unitary theta phi) c _ (fun m hm n hn p hp q hq => mzgate_amp theta phi c m n p q hm hn hp hq) m n p q h1 h2

/-- **C49.** The selection rules, for the arrays returned. -/
theorem gates_selection (r theta phi : ℝ) (c m n p q : ℕ) (hm : m < c) (hn : n < c) (hp : p < c) (hq : q < c) :
    ((m + n) % 2 ≠ 0 → squeezing r theta c m n = 0) ∧ (m + q ≠ n + p → twoModeSqueezing r theta c m n p q = 0) ∧
      (m + n ≠ p + q → beamsplitter theta phi c m n p q = 0) ∧ (m + n ≠ p + q → mzgate theta phi c m n p q = 0) :=
  ⟨fun h => by rw [squeezing_amp r theta c m n hm hn, squA_parity r theta m n h],
    fun h => by rw [twoModeSqueezing_amp r theta c m n p q hm hn hp hq, tmsA_selection r theta m n p q h],
    fun h => by rw [beamsplitter_amp theta phi c m n p q hm hn hp hq, intA_selection _ m n p q h],
    fun h => by rw [mzgate_amp theta phi c m n p q hm hn hp hq, intA_selection _ m n p q h]⟩

/-- **C49.** The entries are loop hafnians of the repeated matrix of the gate. -/
theorem gates_fockAmp (r theta phi : ℝ) (c m n p q : ℕ) (hm : m < c) (hn : n < c) (hp : p < c) (hq : q < c) :
    displacement r phi c m n = fockAmp ((Real.exp (-0.5 * r ^ 2) : ℝ) : ℂ) !![0, 1; 1, 0] ![r * Complex.exp (Complex.I * phi), -(r * Complex.exp (-(Complex.I * phi)))] ![m, n] ∧
    squeezing r theta c m n = fockAmp ((Real.sqrt (1 / Real.cosh r) : ℝ) : ℂ)
      !![-(Complex.exp (Complex.I * theta) * (Real.tanh r : ℂ)), ((1 / Real.cosh r : ℝ) : ℂ); ((1 / Real.cosh r : ℝ) : ℂ), Complex.exp (-(Complex.I * theta)) * (Real.tanh r : ℂ)] 0 ![m, n] ∧
    twoModeSqueezing r theta c m n p q = fockAmp ((1 / Real.cosh r : ℝ) : ℂ)
      !![0, Complex.exp (Complex.I * theta) * (Real.tanh r : ℂ), ((1 / Real.cosh r : ℝ) : ℂ), 0; Complex.exp (Complex.I * theta) * (Real.tanh r : ℂ), 0, 0, ((1 / Real.cosh r : ℝ) : ℂ);
        ((1 / Real.cosh r : ℝ) : ℂ), 0, 0, -(Complex.exp (-(Complex.I * theta)) * (Real.tanh r : ℂ)); 0, ((1 / Real.cosh r : ℝ) : ℂ), -(Complex.exp (-(Complex.I * theta)) * (Real.tanh r : ℂ)), 0] 0 ![m, n, p, q] ∧
    beamsplitter theta phi c m n p q = fockAmp 1 (intR (beamsplitterU theta phi)) 0 ![m, n, p, q] ∧
    mzgate theta phi c m n p q = fockAmp 1 (intR (mzgateU theta phi)) 0 ![m, n, p, q] := by
  refine ⟨?_, ?_, ?_, beamsplitter_amp theta phi c m n p q hm hn hp hq, mzgate_amp theta phi c m n p q hm hn hp hq⟩
  · rw [displacement_amp r phi c m n hm hn, ← ei_neg']; rfl
  · rw [squeezing_amp r theta c m n hm hn, ← ei_neg']; rfl
  · rw [twoModeSqueezing_amp r theta c m n p q hm hn hp hq, ← ei_neg']; rfl

/-- The hypotheses of the unitarity theorem, on a concrete case: the Hong-Ou-Mandel columns of the symmetric beamsplitter for cutoff 3. -/
example : ∑ a ∈ range 3, ∑ b ∈ range 3, (starRingEnd ℂ) (beamsplitter (Real.pi / 4) 0 3 a b 1 1) * beamsplitter (Real.pi / 4) 0 3 a b 1 1 = 1 := by
  have := beamsplitter_unitary (Real.pi / 4) 0 3 1 1 1 1 (by norm_num) (by norm_num)
  simpa using this

end Verif.Props
