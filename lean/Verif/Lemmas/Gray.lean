/- Gray code facts. -/
import Mathlib.Data.Nat.Bitwise
import Mathlib.Algebra.BigOperators.Group.Finset.Basic
import Mathlib.Data.Finset.Powerset
import Mathlib.Data.Fintype.Powerset
import Mathlib.Data.Fintype.BigOperators
import Mathlib.Tactic.Ring

namespace Verif

/-- Binary reflected Gray code. -/
def gray (k : ℕ) : ℕ := k ^^^ (k / 2)

theorem gray_step (k : ℕ) : ∃ t, gray k ^^^ gray (k + 1) = 2 ^ t ∧ 2 ^ t ∣ k + 1 := by
  induction k using Nat.strong_induction_on with
  | _ k ih =>
    rcases Nat.even_or_odd' k with ⟨m, rfl | rfl⟩
    · refine ⟨0, ?_, by simp⟩
      have h1 : (2 * m + 1) / 2 = m := by omega
      have h2 : (2 * m) / 2 = m := by omega
      have h3 : (2 * m + 1) = (2 * m) ^^^ 1 := by
        apply Nat.eq_of_testBit_eq
        intro i
        cases i with
        | zero => simp
        | succ i => simp [Nat.testBit_succ]
      simp only [gray, h1, h2]
      rw [h3]
      rw [Nat.xor_comm (2 * m) 1, Nat.xor_assoc 1, Nat.xor_comm 1, ← Nat.xor_assoc]
      simp
    · obtain ⟨t, ht, hd⟩ := ih m (by omega)
      refine ⟨t + 1, ?_, ?_⟩
      · have key : ∀ i, (gray (2 * m + 1) ^^^ gray (2 * m + 1 + 1)).testBit i = (2 ^ (t + 1)).testBit i := by
          intro i
          cases i with
          | zero =>
            have e1 : (2 * m + 1) / 2 = m := by omega
            have e2 : (2 * m + 1 + 1) / 2 = m + 1 := by omega
            rw [gray, gray, Nat.testBit_xor, Nat.testBit_xor, Nat.testBit_xor, e1, e2]
            simp only [Nat.testBit_zero]
            rcases Nat.mod_two_eq_zero_or_one m with h | h
            · have : (m + 1) % 2 = 1 := by omega
              have : (2 * m + 1 + 1) % 2 = 0 := by omega
              have : (2 * m + 1) % 2 = 1 := by omega
              simp [*, pow_succ]
            · have : (m + 1) % 2 = 0 := by omega
              have : (2 * m + 1 + 1) % 2 = 0 := by omega
              have : (2 * m + 1) % 2 = 1 := by omega
              simp [*, pow_succ]
          | succ i =>
            have e1 : (2 * m + 1) / 2 = m := by omega
            have e2 : (2 * m + 1 + 1) / 2 = m + 1 := by omega
            have := congrArg (fun x => x.testBit i) ht
            simp only [gray, Nat.testBit_xor] at this
            rw [gray, gray, Nat.testBit_xor, Nat.testBit_xor, Nat.testBit_xor, e1, e2]
            simp only [Nat.testBit_succ, e1, e2]
            rw [this]
            congr 1; rw [pow_succ]; omega
        exact Nat.eq_of_testBit_eq key
      · have : 2 * m + 1 + 1 = 2 * (m + 1) := by ring
        rw [this, pow_succ, mul_comm]
        exact Nat.mul_dvd_mul_left 2 hd

theorem gray_lt {n k : ℕ} (h : k < 2 ^ n) : gray k < 2 ^ n :=
  Nat.xor_lt_two_pow h (lt_of_le_of_lt (Nat.div_le_self _ _) h)

theorem gray_injective : Function.Injective gray := by
  intro a b h
  induction a using Nat.strong_induction_on generalizing b with
  | _ a ih =>
    have hb : ∀ i, (gray a).testBit i = (gray b).testBit i := fun i => by rw [h]
    have hdiv : ∀ x, gray (x / 2) = gray x / 2 := by
      intro x
      apply Nat.eq_of_testBit_eq; intro i
      simp [gray, Nat.testBit_xor, Nat.testBit_div_two]
    by_cases ha : a = 0
    · subst ha
      by_contra hne
      have hb0 : b ≠ 0 := fun h => hne h.symm
      -- highest bit
      obtain ⟨i, hi, hmax⟩ := Nat.exists_most_significant_bit hb0
      have := hb i
      simp only [gray, Nat.testBit_xor, Nat.testBit_div_two, Nat.zero_testBit, hi, hmax (i+1) (Nat.lt_succ_self i)] at this
      simp at this
    · have h2 : gray (a / 2) = gray (b / 2) := by rw [hdiv, hdiv, h]
      have hab := ih (a / 2) (Nat.div_lt_self (Nat.pos_of_ne_zero ha) (by norm_num)) h2
      have h0 := hb 0
      simp only [gray, Nat.testBit_xor, Nat.testBit_div_two] at h0
      have h1 : a.testBit (0+1) = b.testBit (0+1) := by
        rw [Nat.testBit_succ, Nat.testBit_succ, hab]
      rw [h1] at h0
      have h3 : a.testBit 0 = b.testBit 0 := by
        revert h0; cases a.testBit 0 <;> cases b.testBit 0 <;> cases b.testBit (0+1) <;> simp
      simp only [Nat.testBit_zero, decide_eq_decide] at h3
      omega

/-- Rows selected by the bits of `g`. -/
def bits (n : ℕ) (g : ℕ) : Finset (Fin n) := Finset.univ.filter fun r => g.testBit r

theorem bits_gray_injOn (n : ℕ) :
    Set.InjOn (fun j => bits n (gray j)) (Finset.range (2 ^ n)) := by
  intro a ha b hb h
  simp only [Finset.coe_range, Set.mem_Iio] at ha hb
  apply gray_injective
  apply Nat.eq_of_testBit_eq
  intro i
  by_cases hi : i < n
  · have := congrArg (fun s => (⟨i, hi⟩ : Fin n) ∈ s) h
    simp only [bits, Finset.mem_filter, Finset.mem_univ, true_and, eq_iff_iff] at this
    exact Bool.eq_iff_iff.mpr this
  · have h1 := Nat.testBit_lt_two_pow (lt_of_lt_of_le (gray_lt ha) (Nat.pow_le_pow_right (by norm_num) (not_lt.mp hi)))
    have h2 := Nat.testBit_lt_two_pow (lt_of_lt_of_le (gray_lt hb) (Nat.pow_le_pow_right (by norm_num) (not_lt.mp hi)))
    rw [h1, h2]

theorem image_bits_gray (n : ℕ) :
    (Finset.range (2 ^ n)).image (fun j => bits n (gray j)) = Finset.univ := by
  apply Finset.eq_univ_of_card
  rw [Finset.card_image_of_injOn (bits_gray_injOn n)]
  simp

/-- Summing over the Gray walk is summing over all subsets. -/
theorem sum_gray {M : Type*} [AddCommMonoid M] (n : ℕ) (F : Finset (Fin n) → M) :
    ∑ j ∈ Finset.range (2 ^ n), F (bits n (gray j)) = ∑ S : Finset (Fin n), F S := by
  rw [← image_bits_gray n, Finset.sum_image (bits_gray_injOn n)]

theorem xor_two_pow_of_not_testBit {g t : ℕ} (h : g.testBit t = false) : g ^^^ 2 ^ t = g + 2 ^ t := by
  induction t generalizing g with
  | zero =>
    have h0 : g % 2 = 0 := by simpa [Nat.testBit_zero] using h
    have hd : (g ^^^ 2 ^ 0) / 2 = g / 2 := by rw [Nat.xor_div_two]; simp
    have hm : (g ^^^ 2 ^ 0) % 2 = 1 := by simp; omega
    omega
  | succ t ih =>
    rw [Nat.testBit_succ] at h
    have h1 := ih h
    have hd : (g ^^^ 2 ^ (t + 1)) / 2 = (g / 2) ^^^ 2 ^ t := by
      rw [Nat.xor_div_two, pow_succ]; congr 1; omega
    have hm : (g ^^^ 2 ^ (t + 1)) % 2 = g % 2 := by
      rw [Nat.xor_mod_two_eq, pow_succ]; omega
    have : 2 ^ (t + 1) = 2 * 2 ^ t := by ring
    omega

theorem xor_two_pow_of_testBit {g t : ℕ} (h : g.testBit t = true) : (g ^^^ 2 ^ t) + 2 ^ t = g := by
  have h1 : (g ^^^ 2 ^ t).testBit t = false := by simp [Nat.testBit_xor, h]
  have := xor_two_pow_of_not_testBit h1
  rw [Nat.xor_assoc, Nat.xor_self, Nat.xor_zero] at this
  exact this.symm

end Verif
