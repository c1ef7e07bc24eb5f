/- La Budde's recurrence computes the characteristic polynomial of an upper Hessenberg matrix. -/
import Verif.Model.Charpoly
import Verif.Lemmas.RecHaf
import Mathlib.LinearAlgebra.Matrix.Charpoly.Coeff

set_option linter.unusedSectionVars false
set_option linter.unusedSimpArgs false

namespace Verif
open Model Matrix Polynomial Finset

section det
variable {R : Type*} [CommRing R]

/-- Expansion along a last row with two non-zero entries. -/
theorem det_last_row {r : ℕ} (N : Matrix (Fin (r + 2)) (Fin (r + 2)) R)
    (h : ∀ j : Fin (r + 2), (j : ℕ) < r → N (Fin.last _) j = 0) :
    N.det = N (Fin.last _) (Fin.last _) * (N.submatrix Fin.castSucc Fin.castSucc).det
      - N (Fin.last _) (Fin.castSucc (Fin.last r)) * (N.submatrix Fin.castSucc (Fin.succAbove (Fin.castSucc (Fin.last r)))).det := by
  rw [det_succ_row N (Fin.last _), Fin.sum_univ_castSucc, Fin.sum_univ_castSucc]
  rw [Finset.sum_eq_zero]
  · simp only [Fin.val_last, Fin.val_castSucc, Fin.succAbove_last, zero_add]
    have e1 : (-1 : R) ^ (r + 1 + r) = -1 := by
      rw [show r + 1 + r = 2 * r + 1 by ring, pow_succ, pow_mul]; simp
    have e2 : (-1 : R) ^ (r + 1 + (r + 1)) = 1 := by
      rw [show r + 1 + (r + 1) = 2 * (r + 1) by ring, pow_mul]; simp
    rw [e1, e2]; ring
  · intro j _
    rw [h _ (by simp)]; simp

end det

variable {K : Type} [Field K]

/-- entries of `X·1 - H` -/
noncomputable def chm (H : ℕ → ℕ → K) (i j : ℕ) : K[X] := (if i = j then X else 0) - C (H i j)

noncomputable def lbP (H : ℕ → ℕ → K) (r : ℕ) : K[X] := (toMatrix r r H).charpoly

theorem lbP_eq (H : ℕ → ℕ → K) (r : ℕ) : lbP H r = (Matrix.of fun i j : Fin r => chm H i j).det := by
  rw [lbP, Matrix.charpoly]
  congr 1
  ext i j : 1
  simp only [charmatrix, chm, toMatrix, Matrix.sub_apply, Matrix.scalar_apply, Matrix.diagonal_apply, RingHom.mapMatrix_apply,
    Matrix.map_apply, Matrix.of_apply, Fin.ext_iff]

theorem lbP_zero (H : ℕ → ℕ → K) : lbP H 0 = 1 := by rw [lbP_eq]; simp

/-- determinant with the last column replaced -/
noncomputable def lbD (H : ℕ → ℕ → K) (r : ℕ) (u : ℕ → K[X]) : K[X] :=
  (Matrix.of fun i j : Fin r => if (j : ℕ) + 1 = r then u i else chm H i j).det

theorem lbD_one (H : ℕ → ℕ → K) (u : ℕ → K[X]) : lbD H 1 u = u 0 := by simp [lbD]

theorem lbD_step (H : ℕ → ℕ → K) (r : ℕ) (hH : ∀ j < r, H (r + 1) j = 0) (u : ℕ → K[X]) :
    lbD H (r + 2) u = u (r + 1) * lbP H (r + 1) + C (H (r + 1) r) * lbD H (r + 1) u := by
  rw [lbD, det_last_row]
  · have e1 : ((Matrix.of fun i j : Fin (r + 2) => if (j : ℕ) + 1 = r + 2 then u i else chm H i j).submatrix Fin.castSucc Fin.castSucc)
        = Matrix.of fun i j : Fin (r + 1) => chm H i j := by
      ext i j : 2
      have := j.2
      simp only [submatrix_apply, Matrix.of_apply, Fin.val_castSucc]
      rw [if_neg (by omega)]
    have e2 : ((Matrix.of fun i j : Fin (r + 2) => if (j : ℕ) + 1 = r + 2 then u i else chm H i j).submatrix Fin.castSucc
        (Fin.succAbove (Fin.castSucc (Fin.last r))))
        = Matrix.of fun i j : Fin (r + 1) => if (j : ℕ) + 1 = r + 1 then u i else chm H i j := by
      ext i j : 2
      have := j.2
      simp only [submatrix_apply, Matrix.of_apply, Fin.val_castSucc]
      by_cases hj : (j : ℕ) = r
      · have : ((Fin.castSucc (Fin.last r)).succAbove j : ℕ) = r + 1 := by
          rw [Fin.succAbove_of_le_castSucc _ _ (by rw [Fin.le_def]; simp [hj])]; simp [hj]
        rw [this, if_pos rfl, if_pos (by omega)]
      · have : ((Fin.castSucc (Fin.last r)).succAbove j : ℕ) = j := by
          rw [Fin.succAbove_of_castSucc_lt _ _ (by rw [Fin.lt_def]; simp; omega)]; simp
        rw [this, if_neg (by omega), if_neg (by omega)]
    rw [e1, e2, ← lbP_eq]
    simp only [Matrix.of_apply, Fin.val_last, Fin.val_castSucc, if_true]
    rw [if_neg (by omega), chm, if_neg (by omega)]
    unfold lbD
    ring
  · intro j hj
    simp only [Matrix.of_apply, Fin.val_last]
    rw [if_neg (by omega), chm, if_neg (by omega), hH j hj]; simp

theorem lbP_eq_lbD (H : ℕ → ℕ → K) (r : ℕ) : lbP H (r + 1) = lbD H (r + 1) (fun i => chm H i r) := by
  rw [lbP_eq, lbD]
  congr 1
  ext i j : 2
  simp only [Matrix.of_apply]
  by_cases h : (j : ℕ) + 1 = r + 1
  · rw [if_pos h]; have : (j : ℕ) = r := by omega
    rw [this]
  · rw [if_neg h]

theorem betaProd_eq (H : ℕ → ℕ → K) (i m : ℕ) : betaProd H i m = ∏ t ∈ range m, H (i - t - 1) (i - t - 2) := by
  unfold betaProd beta
  induction m with
  | zero => simp
  | succ m ih => rw [forRange_succ, ih, Finset.prod_range_succ]

theorem lbD_sum (H : ℕ → ℕ → K) (q r : ℕ) (hH : ∀ i ≤ r, ∀ j, j + 1 < i → H i j = 0) :
    lbD H (r + 1) (fun i => - C (H i q)) = - ∑ m ∈ range (r + 1), C (H (r - m) q * ∏ t ∈ range m, H (r - t) (r - t - 1)) * lbP H (r - m) := by
  induction r with
  | zero => rw [lbD_one]; simp [lbP_zero]
  | succ r ih =>
    rw [lbD_step H r (fun j hj => hH (r + 1) le_rfl j (by omega)), ih (fun i hi => hH i (by omega))]
    rw [Finset.sum_range_succ' _ (r + 1)]
    simp only [Finset.prod_range_succ', Nat.sub_zero, Finset.prod_range_zero, mul_one, Nat.add_sub_cancel, Nat.add_sub_add_right]
    rw [neg_add, mul_neg, Finset.mul_sum]
    have : ∀ x ∈ range (r + 1), C (H (r + 1) r) * (C (H (r - x) q * ∏ t ∈ range x, H (r - t) (r - t - 1)) * lbP H (r - x))
        = C (H (r - x) q * ((∏ k ∈ range x, H (r - k) (r - k - 1)) * H (r + 1) r)) * lbP H (r - x) := by
      intro x _; rw [← mul_assoc, ← C_mul]; congr 2; ring
    rw [Finset.sum_congr rfl this]
    ring

/-- La Budde's three-term recurrence, `i ≥ 1`. -/
theorem lbP_rec (H : ℕ → ℕ → K) (i : ℕ) (hi : 1 ≤ i) (hH : ∀ a < i, ∀ j, j + 1 < a → H a j = 0) :
    lbP H i = (X - C (alpha H i)) * lbP H (i - 1) - ∑ m ∈ Ico 1 i, C (hij H (i - m) i * betaProd H i m) * lbP H (i - m - 1) := by
  obtain ⟨r, rfl⟩ : ∃ r, i = r + 1 := ⟨i - 1, by omega⟩
  cases r with
  | zero => rw [lbP_eq_lbD, lbD_one]; simp [lbP_zero, chm, alpha]
  | succ r =>
    rw [lbP_eq_lbD, lbD_step H r (fun j hj => hH (r + 1) (by omega) j (by omega))]
    have e : lbD H (r + 1) (fun i => chm H i (r + 1)) = lbD H (r + 1) (fun i => - C (H i (r + 1))) := by
      unfold lbD
      congr 1
      ext i j : 2
      have := i.2
      simp only [Matrix.of_apply]
      by_cases h : (j : ℕ) + 1 = r + 1
      · rw [if_pos h, if_pos h, chm, if_neg (by omega), zero_sub]
      · rw [if_neg h, if_neg h]
    rw [e, lbD_sum H (r + 1) r (fun a ha => hH a (by omega))]
    rw [sub_eq_add_neg, chm, if_pos rfl]
    congr 1
    rw [mul_neg, neg_inj, Finset.mul_sum, Finset.sum_Ico_eq_sum_range]
    apply Finset.sum_congr (by congr 1)
    intro m hm
    have hm : m < r + 1 := by simpa using hm
    rw [← mul_assoc, ← C_mul, betaProd_eq, show 1 + m = m + 1 by ring, Finset.prod_range_succ']
    have e1 : r + 1 + 1 - (m + 1) - 1 = r - m := by omega
    have e2 : ∏ k ∈ range m, H (r + 1 + 1 - (k + 1) - 1) (r + 1 + 1 - (k + 1) - 2) = ∏ k ∈ range m, H (r - k) (r - k - 1) := by
      apply Finset.prod_congr rfl; intro k hk
      have : k < m := by simpa using hk
      congr 1 <;> omega
    rw [e1, e2]
    unfold hij
    rw [e1]
    have e3 : H (r + 1 + 1 - 0 - 1) (r + 1 + 1 - 0 - 2) = H (r + 1) r := rfl
    rw [e3]
    congr 2
    have e4 : H (r - m) (r + 1 + 1 - 1) = H (r - m) (r + 1) := rfl
    rw [e4]; ring

theorem lbP_natDegree (H : ℕ → ℕ → K) (i : ℕ) : (lbP H i).natDegree = i := by
  rw [lbP, Matrix.charpoly_natDegree_eq_dim]; simp

theorem lbP_coeff_self (H : ℕ → ℕ → K) (i : ℕ) : (lbP H i).coeff i = 1 := by
  have := Matrix.charpoly_monic (toMatrix i i H)
  rw [Monic, leadingCoeff] at this
  have h := lbP_natDegree H i
  unfold lbP at *; rw [h] at this; exact this

theorem lbP_coeff_gt (H : ℕ → ℕ → K) (i j : ℕ) (h : i < j) : (lbP H i).coeff j = 0 :=
  coeff_eq_zero_of_natDegree_lt (by rw [lbP_natDegree]; exact h)

/-- coefficient of `X^(i-j)` -/
noncomputable def lbc (H : ℕ → ℕ → K) (i j : ℕ) : K := (lbP H i).coeff (i - j)

theorem sumaLoop_eq (H c : ℕ → ℕ → K) (i j : ℕ) :
    sumaLoop H c i j = ∑ m ∈ Ico 1 (j - 1), hij H (i - m) i * betaProd H i m * c (i - m - 1 - 1) (j - m - 1 - 1) := by
  unfold sumaLoop
  rw [forRange2_eq, Finset.sum_Ico_eq_sum_range]
  generalize j - 1 - 1 = N
  induction N with
  | zero => simp
  | succ N ih => rw [forRange_succ, ih, Finset.sum_range_succ]

/-- coefficients of the recurrence -/
theorem lbc_rec (H : ℕ → ℕ → K) (i j : ℕ) (hj : 2 ≤ j) (hji : j ≤ i) (hH : ∀ a < i, ∀ j, j + 1 < a → H a j = 0) :
    lbc H i j = (if j < i then lbc H (i - 1) j else 0) - alpha H i * lbc H (i - 1) (j - 1)
      - (∑ m ∈ Ico 1 (j - 1), hij H (i - m) i * betaProd H i m * lbc H (i - m - 1) (j - m - 1))
      - hij H (i - j + 1) i * betaProd H i (j - 1) := by
  rw [lbc, lbP_rec H i (by omega) hH, coeff_sub, sub_mul, coeff_sub, coeff_C_mul, finset_sum_coeff]
  have eX : (X * lbP H (i - 1)).coeff (i - j) = if j < i then lbc H (i - 1) j else 0 := by
    by_cases h : j < i
    · rw [if_pos h, show i - j = (i - 1 - j) + 1 by omega, coeff_X_mul]; rfl
    · rw [if_neg h, show i - j = 0 by omega, coeff_X_mul_zero]
  rw [eX]
  have ea : (lbP H (i - 1)).coeff (i - j) = lbc H (i - 1) (j - 1) := by
    rw [lbc]; congr 1; omega
  rw [ea]
  simp only [coeff_C_mul]
  rw [← Finset.sum_Ico_consecutive _ (show 1 ≤ j - 1 by omega) (show j - 1 ≤ i by omega)]
  rw [Finset.sum_eq_sum_Ico_succ_bot (show j - 1 < i by omega)]
  have e0 : i - (j - 1) - 1 = i - j := by omega
  have e0' : i - (j - 1) = i - j + 1 := by omega
  rw [e0, e0', lbP_coeff_self, mul_one]
  have z : ∑ x ∈ Ico (j - 1 + 1) i, hij H (i - x) i * betaProd H i x * (lbP H (i - x - 1)).coeff (i - j) = 0 := by
    apply Finset.sum_eq_zero
    intro x hx
    rw [Finset.mem_Ico] at hx
    rw [lbP_coeff_gt _ _ _ (by omega), mul_zero]
  rw [z, add_zero]
  have es : ∑ x ∈ Ico 1 (j - 1), hij H (i - x) i * betaProd H i x * (lbP H (i - x - 1)).coeff (i - j)
      = ∑ x ∈ Ico 1 (j - 1), hij H (i - x) i * betaProd H i x * lbc H (i - x - 1) (j - x - 1) := by
    apply Finset.sum_congr rfl
    intro x hx
    rw [Finset.mem_Ico] at hx
    rw [lbc]; congr 2; omega
  rw [es]; ring

theorem lbc_one (H : ℕ → ℕ → K) (i : ℕ) (hi : 2 ≤ i) (hH : ∀ a < i, ∀ j, j + 1 < a → H a j = 0) :
    lbc H i 1 = lbc H (i - 1) 1 - alpha H i := by
  rw [lbc, lbP_rec H i (by omega) hH, coeff_sub, sub_mul, coeff_sub, coeff_C_mul, finset_sum_coeff]
  rw [Finset.sum_eq_zero]
  · rw [show i - 1 = (i - 1 - 1) + 1 by omega, coeff_X_mul]
    rw [show i - 1 - 1 + 1 = i - 1 by omega, lbP_coeff_self]
    simp [lbc]
  · intro x hx
    rw [Finset.mem_Ico] at hx
    rw [coeff_C_mul, lbP_coeff_gt _ _ _ (by omega), mul_zero]

theorem lbc_one_one (H : ℕ → ℕ → K) : lbc H 1 1 = -alpha H 1 := by
  rw [lbc, lbP_rec H 1 le_rfl (by intro a ha j hj; omega)]
  simp [lbP_zero]

theorem lbc_two_two (H : ℕ → ℕ → K) : lbc H 2 2 = alpha H 1 * alpha H 2 - hij H 1 2 * beta H 2 := by
  rw [lbc_rec H 2 2 le_rfl le_rfl (by intro a ha j hj; omega)]
  simp [lbc_one_one, betaProd, forRange, beta]; ring

/-- `_charpoly(H, n)` on an upper Hessenberg matrix. -/
theorem charpolyHess_eq (n : ℕ) (H : ℕ → ℕ → K) (hH : ∀ a < n, ∀ j, j + 1 < a → H a j = 0) (t : ℕ) (ht : t < n) :
    charpolyHess n H n t = (toMatrix n n H).charpoly.coeff (n - 1 - t) := by
  unfold charpolyHess
  simp only [forRange2_self]
  have init : ∀ i j, 1 ≤ j → j ≤ i → i ≤ 2 → i ≤ n →
      (upd2 (upd2 (upd2 (fun _ _ => 0) 0 0 (-alpha H 1)) 1 0 (upd2 (fun _ _ => 0) 0 0 (-alpha H 1) 0 0 - alpha H 2)) 1 1
        (alpha H 1 * alpha H 2 - hij H 1 2 * beta H 2)) (i - 1) (j - 1) = lbc H i j := by
    intro i j hj hji hi hin
    have : (i = 1 ∧ j = 1) ∨ (i = 2 ∧ j = 1) ∨ (i = 2 ∧ j = 2) := by omega
    rcases this with ⟨rfl, rfl⟩ | ⟨rfl, rfl⟩ | ⟨rfl, rfl⟩
    · simp [upd2, lbc_one_one]
    · rw [lbc_one H 2 le_rfl (by intro a ha j hj; omega)]; simp [upd2, lbc_one_one]
    · rw [lbc_two_two]; simp [upd2]
  rcases Nat.lt_or_ge n 2 with hn | hn
  · have h1 : n = 1 := by omega
    subst h1
    have ht0 : t = 0 := by omega
    subst ht0
    have := init 1 1 le_rfl le_rfl (by omega) le_rfl
    have e : forRange2 3 (1 + 1) (upd2 (upd2 (upd2 (fun _ _ => 0) 0 0 (-alpha H 1)) 1 0 (upd2 (fun _ _ => 0) 0 0 (-alpha H 1) 0 0 - alpha H 2)) 1 1
        (alpha H 1 * alpha H 2 - hij H 1 2 * beta H 2)) (fun i c =>
      let c := upd2 c (i - 1) 0 (c (i - 1 - 1) 0 - alpha H i)
      let c := forRange2 2 i c fun j c => upd2 c (i - 1) (j - 1) (charpolyEntry H c i j)
      upd2 c (i - 1) (i - 1) (-alpha H i * c (i - 1 - 1) (i - 1 - 1) - sumaLoop H c i i - hij H 1 i * betaProd H i (i - 1))) = (upd2 (upd2 (upd2 (fun _ _ => 0) 0 0 (-alpha H 1)) 1 0 (upd2 (fun _ _ => 0) 0 0 (-alpha H 1) 0 0 - alpha H 2)) 1 1
        (alpha H 1 * alpha H 2 - hij H 1 2 * beta H 2)) := rfl
    exact this
  · have key := forRange2_inv (fun s (c : ℕ → ℕ → K) => ∀ i j, 1 ≤ j → j ≤ i → i < s → c (i - 1) (j - 1) = lbc H i j)
      (show 3 ≤ n + 1 by omega)
      (upd2 (upd2 (upd2 (fun _ _ => 0) 0 0 (-alpha H 1)) 1 0 (upd2 (fun _ _ => 0) 0 0 (-alpha H 1) 0 0 - alpha H 2)) 1 1
        (alpha H 1 * alpha H 2 - hij H 1 2 * beta H 2)) (fun i c =>
      let c := upd2 c (i - 1) 0 (c (i - 1 - 1) 0 - alpha H i)
      let c := forRange2 2 i c fun j c => upd2 c (i - 1) (j - 1) (charpolyEntry H c i j)
      upd2 c (i - 1) (i - 1) (-alpha H i * c (i - 1 - 1) (i - 1 - 1) - sumaLoop H c i i - hij H 1 i * betaProd H i (i - 1)))
      (fun i j h1 h2 h3 => init i j h1 h2 (by omega) (by omega)) ?_
    · have := key n (t + 1) (by omega) (by omega) (by omega)
      refine Eq.trans this ?_
      rw [lbc, lbP]; congr 1; omega
    · intro i c hi3 hin hc
      have hHi : ∀ a < i, ∀ j, j + 1 < a → H a j = 0 := fun a ha => hH a (by omega)
      -- after the j loop
      have inner := forRange2_inv (fun s (c' : ℕ → ℕ → K) =>
          (∀ i' j, 1 ≤ j → j ≤ i' → i' < i → c' (i' - 1) (j - 1) = lbc H i' j) ∧
          (∀ j, 1 ≤ j → j < s → c' (i - 1) (j - 1) = lbc H i j)) (show 2 ≤ i by omega)
        (upd2 c (i - 1) 0 (c (i - 1 - 1) 0 - alpha H i)) (fun j c => upd2 c (i - 1) (j - 1) (charpolyEntry H c i j)) ⟨?_, ?_⟩ ?_
      · obtain ⟨a1, a2⟩ := inner
        have hsum : ∀ (c' : ℕ → ℕ → K) (j : ℕ), j ≤ i → (∀ i' j, 1 ≤ j → j ≤ i' → i' < i → c' (i' - 1) (j - 1) = lbc H i' j) →
            sumaLoop H c' i j = ∑ m ∈ Ico 1 (j - 1), hij H (i - m) i * betaProd H i m * lbc H (i - m - 1) (j - m - 1) := by
          intro c' j hj h
          rw [sumaLoop_eq]
          apply Finset.sum_congr rfl
          intro m hm
          rw [Finset.mem_Ico] at hm
          rw [h (i - m - 1) (j - m - 1) (by omega) (by omega) (by omega)]
        intro i' j h1 h2 h3
        by_cases hi' : i' = i
        · subst hi'
          by_cases hj : j = i'
          · subst hj
            simp only [upd2, and_self, if_true]
            rw [lbc_rec H j j (by omega) le_rfl hHi, if_neg (by omega), hsum _ j le_rfl a1, a1 (j - 1) (j - 1) (by omega) le_rfl (by omega)]
            rw [show j - j + 1 = 1 by omega]; ring
          · have : j - 1 ≠ i' - 1 := by omega
            simp only [upd2, this, and_false, if_false]
            exact a2 j h1 (by omega)
        · have : i' - 1 ≠ i - 1 := by omega
          simp only [upd2, this, false_and, if_false]
          exact a1 i' j h1 h2 (by omega)
      · intro i' j h1 h2 h3
        have : i' - 1 ≠ i - 1 := by omega
        simp only [upd2, this, false_and, if_false]
        exact hc i' j h1 h2 h3
      · intro j h1 h2
        have : j = 1 := by omega
        subst this
        simp only [upd2, and_self, if_true]
        rw [lbc_one H i (by omega) hHi, hc (i - 1) 1 le_rfl (by omega) (by omega)]
      · intro j c' hj2 hji ⟨a1, a2⟩
        refine ⟨?_, ?_⟩
        · intro i' j' h1 h2 h3
          have : i' - 1 ≠ i - 1 := by omega
          simp only [upd2, this, false_and, if_false]
          exact a1 i' j' h1 h2 h3
        · intro j' h1 h2
          by_cases hj : j' = j
          · subst hj
            simp only [upd2, and_self, if_true]
            rw [charpolyEntry, lbc_rec H i j' hj2 (by omega) hHi, if_pos hji, a1 (i - 1) j' (by omega) (by omega) (by omega),
              a1 (i - 1) (j' - 1) (by omega) (by omega) (by omega)]
            congr 2
            rw [sumaLoop_eq]
            apply Finset.sum_congr rfl
            intro m hm
            rw [Finset.mem_Ico] at hm
            rw [a1 (i - m - 1) (j' - m - 1) (by omega) (by omega) (by omega)]
          · have : j' - 1 ≠ j - 1 := by omega
            simp only [upd2, this, and_false, if_false]
            exact a2 j' h1 (by omega)

end Verif
