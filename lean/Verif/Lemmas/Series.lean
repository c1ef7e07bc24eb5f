/- The in-place polynomial accumulation of `f`, `f_loop`, `f_loop_odd` computes a truncated exponential. -/
import Verif.Model.HafnianCore
import Mathlib.RingTheory.PowerSeries.Derivative
import Mathlib.Algebra.CharZero.Defs
import Mathlib.Data.Nat.Cast.Field
import Mathlib.Algebra.BigOperators.Intervals
import Mathlib.Tactic.FieldSimp
import Mathlib.Tactic.LinearCombination

set_option linter.unusedSectionVars false

namespace Verif
open Model PowerSeries Finset

variable {K : Type} [Field K]

section step

/-- The inner `k` loop adds to one row only. -/
theorem inner_loop (count : ℕ) (hc : count ≤ 1) (p : K) (ij top : ℕ) (c : ℕ → ℕ → K) :
    let c' := forRange2 (ij + 1) (top + 2) c fun k c =>
      upd2 c count (k - 1) (c count (k - 1) + c (1 - count) (k - ij - 1) * p)
    (∀ k, c' (1 - count) k = c (1 - count) k) ∧
    (∀ k, c' count k = c count k + if ij ≤ k ∧ k ≤ top then c (1 - count) (k - ij) * p else 0) := by
  have hne : 1 - count ≠ count := by omega
  rcases Nat.lt_or_ge (top + 1) (ij + 1) with hlt | hge
  · have h0 : top + 2 - (ij + 1) = 0 := by omega
    simp only [forRange2_eq, h0, forRange_zero]
    refine ⟨fun k => trivial, fun k => ?_⟩
    rw [if_neg (by omega), add_zero]
  · have := forRange2_inv (a := ij + 1) (b := top + 2)
      (fun K' (c' : ℕ → ℕ → K) => (∀ k, c' (1 - count) k = c (1 - count) k) ∧
        (∀ k, c' count k = c count k + if ij ≤ k ∧ k + 1 < K' then c (1 - count) (k - ij) * p else 0))
      (by omega) c (fun k c => upd2 c count (k - 1) (c count (k - 1) + c (1 - count) (k - ij - 1) * p))
      ⟨fun _ => rfl, fun k => by rw [if_neg (by omega), add_zero]⟩
      (by
        rintro i s hi1 hi2 ⟨h1, h2⟩
        constructor
        · intro k
          simp [upd2, hne, h1]
        · intro k
          by_cases hk : k = i - 1
          · subst hk
            simp only [upd2, and_self, if_true]
            rw [h2, h1, if_neg (by omega), if_pos (by omega), add_zero]
            congr 3; omega
          · simp only [upd2, hk, and_false, if_false, h2]
            congr 1
            have : (ij ≤ k ∧ k + 1 < i) ↔ (ij ≤ k ∧ k + 1 < i + 1) := by omega
            simp only [this])
    refine ⟨this.1, fun k => ?_⟩
    rw [this.2 k]
    congr 1
    have : (ij ≤ k ∧ k + 1 < top + 2) ↔ (ij ≤ k ∧ k ≤ top) := by omega
    simp only [this]

/-- One step multiplies the current row by the truncated exponential of `a·zⁱ`. -/
theorem combStep_spec [CharZero K] (top jmax i : ℕ) (a : K) (s : Comb K) (hc : s.count ≤ 1) :
    (combStep top jmax i a s).count = 1 - s.count ∧
    ∀ k, k ≤ top → (combStep top jmax i a s).comb (1 - s.count) k =
      ∑ j ∈ range (jmax + 1), if i * j ≤ k then s.comb s.count (k - i * j) * (a ^ j / (j.factorial : K)) else 0 := by
  refine ⟨rfl, ?_⟩
  set count := 1 - s.count with hcount
  have hcc : 1 - count = s.count := by omega
  have hc1 : count ≤ 1 := by omega
  have hne : s.count ≠ count := by omega
  let comb0 : ℕ → ℕ → K := fun r k => if r = count then s.comb (1 - count) k else s.comb r k
  have := forRange2_inv (a := 1) (b := jmax + 1)
      (fun J (st : (ℕ → ℕ → K) × K) => st.2 = a ^ (J - 1) / ((J - 1).factorial : K) ∧
        (∀ k, st.1 s.count k = s.comb s.count k) ∧
        (∀ k, k ≤ top → st.1 count k =
          ∑ j ∈ range J, if i * j ≤ k then s.comb s.count (k - i * j) * (a ^ j / (j.factorial : K)) else 0))
      (by omega) (comb0, (1 : K)) (fun j st =>
        let powfactor := st.2 * (a / (j : K))
        let comb := forRange2 (i * j + 1) (top + 2) st.1 fun k c =>
          upd2 c count (k - 1) (c count (k - 1) + c (1 - count) (k - i * j - 1) * powfactor)
        (comb, powfactor))
      ⟨by simp, fun k => by simp [comb0, hne], fun k _ => by simp [comb0, hcc]⟩
      (by
        rintro J ⟨c, p⟩ hJ1 _ ⟨h1, h2, h3⟩
        simp only at h1 h2 h3
        obtain ⟨e1, e2⟩ := inner_loop count hc1 (p * (a / (J : K))) (i * J) top c
        rw [hcc] at e1 e2
        have hp : p * (a / (J : K)) = a ^ J / (J.factorial : K) := by
          rw [h1]
          obtain ⟨J', rfl⟩ : ∃ J', J = J' + 1 := ⟨J - 1, by omega⟩
          rw [Nat.add_sub_cancel, Nat.factorial_succ, pow_succ]
          push_cast
          rw [div_mul_div_comm, mul_comm ((J' : K) + 1)]
        refine ⟨by simpa using hp, fun k => ?_, fun k hk => ?_⟩
        · simp only [hcc]; rw [e1, h2]
        · simp only [hcc]
          rw [e2, h3 k hk, Finset.sum_range_succ, h2, hp]
          simp only [hk, and_true])
  have h := this.2.2
  intro k hk
  exact h k hk

end step

section series
variable [CharZero K]

/-- The power series `exp(a zⁱ)` for `i ≥ 1`. -/
noncomputable def expT (i : ℕ) (a : K) : K⟦X⟧ :=
  PowerSeries.mk fun k => if i ∣ k then a ^ (k / i) / ((k / i).factorial : K) else 0

theorem coeff_mul_expT (i : ℕ) (hi : 0 < i) (a : K) (P : K⟦X⟧) (k jmax : ℕ) (hj : k / i ≤ jmax) :
    coeff k (P * expT i a) =
      ∑ j ∈ range (jmax + 1), if i * j ≤ k then coeff (k - i * j) P * (a ^ j / (j.factorial : K)) else 0 := by
  rw [mul_comm, coeff_mul, Finset.Nat.sum_antidiagonal_eq_sum_range_succ (fun x y => coeff x (expT i a) * coeff y P)]
  rw [← Finset.sum_filter]
  have : ∑ x ∈ range k.succ, coeff x (expT i a) * coeff (k - x) P
      = ∑ x ∈ (range k.succ).filter (i ∣ ·), coeff x (expT i a) * coeff (k - x) P := by
    rw [Finset.sum_filter]
    refine Finset.sum_congr rfl fun x _ => ?_
    split
    · rfl
    · rename_i h; simp [expT, h]
  rw [this]
  symm
  refine Finset.sum_nbij' (fun j => i * j) (fun x => x / i) ?_ ?_ ?_ ?_ ?_
  · intro j hj
    simp only [mem_filter, mem_range] at hj ⊢
    exact ⟨by omega, dvd_mul_right _ _⟩
  · intro x hx
    simp only [mem_filter, mem_range] at hx ⊢
    have h1 : x / i ≤ k / i := Nat.div_le_div_right (by omega)
    have h2 : i * (x / i) = x := Nat.mul_div_cancel' hx.2
    refine ⟨by omega, by omega⟩
  · intro j _; exact Nat.mul_div_cancel_left j hi
  · intro x hx
    simp only [mem_filter, mem_range] at hx
    exact Nat.mul_div_cancel' hx.2
  · intro j _
    simp only [expT, coeff_mk, dvd_mul_right, if_true, Nat.mul_div_cancel_left j hi]
    ring

theorem expT_deriv (i : ℕ) (hi : 0 < i) (a : K) :
    derivative K (expT i a) = (PowerSeries.C ((i : K) * a) * X ^ (i - 1)) * expT i a := by
  ext k
  rw [PowerSeries.coeff_derivative, mul_assoc, coeff_C_mul, coeff_X_pow_mul']
  simp only [expT, coeff_mk]
  split
  · rename_i h
    obtain ⟨q, hq⟩ := h
    have hq0 : q ≠ 0 := by rintro rfl; omega
    obtain ⟨q, rfl⟩ := Nat.exists_eq_succ_of_ne_zero hq0
    rw [Nat.succ_eq_add_one] at hq
    have hle : i - 1 ≤ k := by
      have : i * (q + 1) = i * q + i := by ring
      omega
    have hk : k - (i - 1) = i * q := by
      have : i * (q + 1) = i * q + i := by ring
      omega
    rw [if_pos hle, hk, if_pos (dvd_mul_right _ _), Nat.mul_div_cancel_left q hi, hq,
      Nat.mul_div_cancel_left _ hi, Nat.factorial_succ, pow_succ]
    have hkc : (k : K) + 1 = i * (q + 1) := by exact_mod_cast hq
    rw [hkc]
    have h1 : ((q : K) + 1) ≠ 0 := by exact_mod_cast Nat.succ_ne_zero q
    have h2 : (q.factorial : K) ≠ 0 := by exact_mod_cast q.factorial_ne_zero
    push_cast
    field_simp
  · rename_i h
    split
    · rename_i hle
      rw [if_neg]
      · simp
      · rintro ⟨q, hq⟩
        apply h
        refine ⟨q + 1, ?_⟩
        have : i * (q + 1) = i * q + i := by ring
        omega
    · simp

/-- `exp(Σ_{t=1}^{M} a_t z^t)` as a product. -/
noncomputable def expProd (a : ℕ → K) (M : ℕ) : K⟦X⟧ := ∏ t ∈ range M, expT (t + 1) (a (t + 1))

theorem expProd_succ (a : ℕ → K) (M : ℕ) : expProd a (M + 1) = expProd a M * expT (M + 1) (a (M + 1)) := by
  rw [expProd, Finset.prod_range_succ]; rfl

theorem expProd_deriv (a : ℕ → K) (M : ℕ) :
    derivative K (expProd a M) = (∑ t ∈ range M, PowerSeries.C (((t + 1 : ℕ) : K) * a (t + 1)) * X ^ t) * expProd a M := by
  induction M with
  | zero => simp [expProd]
  | succ M ih =>
    rw [expProd_succ, Derivation.leibniz, ih, expT_deriv (M + 1) (Nat.succ_pos M), Finset.sum_range_succ]
    simp only [smul_eq_mul, Nat.add_sub_cancel]
    ring

theorem expProd_coeff_zero (a : ℕ → K) (M : ℕ) : coeff 0 (expProd a M) = 1 := by
  induction M with
  | zero => simp [expProd]
  | succ M ih =>
    rw [expProd_succ, coeff_mul_expT _ (Nat.succ_pos M) _ _ 0 0 (by simp)]
    simp only [zero_add, Finset.sum_range_one]
    simpa using ih

/-- Recurrence of the coefficients of an exponential: `(k+1) e_{k+1} = Σ_{s≤k} (s+1) a_{s+1} e_{k-s}`. -/
theorem expProd_recurrence (a : ℕ → K) (M k : ℕ) (hk : k < M) :
    ((k : K) + 1) * coeff (k + 1) (expProd a M)
      = ∑ s ∈ range (k + 1), ((s : K) + 1) * a (s + 1) * coeff (k - s) (expProd a M) := by
  have h := congrArg (coeff k) (expProd_deriv a M)
  rw [PowerSeries.coeff_derivative, Finset.sum_mul, map_sum] at h
  rw [mul_comm, h]
  have h2 : ∀ t ∈ range M, coeff k (PowerSeries.C (((t + 1 : ℕ) : K) * a (t + 1)) * X ^ t * expProd a M)
      = if t ≤ k then ((t : K) + 1) * a (t + 1) * coeff (k - t) (expProd a M) else 0 := by
    intro t _
    rw [mul_assoc, coeff_C_mul, coeff_X_pow_mul']
    split
    · push_cast; ring
    · simp
  rw [Finset.sum_congr rfl h2, ← Finset.sum_filter]
  congr 1
  ext t; simp; omega

/-- Uniqueness: a sequence with the same start and recurrence is the same. -/
theorem recurrence_unique (a e e' : ℕ → K) (M : ℕ) (h0 : e 0 = e' 0)
    (h : ∀ k < M, ((k : K) + 1) * e (k + 1) = ∑ s ∈ range (k + 1), ((s : K) + 1) * a (s + 1) * e (k - s))
    (h' : ∀ k < M, ((k : K) + 1) * e' (k + 1) = ∑ s ∈ range (k + 1), ((s : K) + 1) * a (s + 1) * e' (k - s)) :
    ∀ k ≤ M, e k = e' k := by
  intro k
  induction k using Nat.strong_induction_on with
  | _ k ih =>
    intro hk
    rcases k with _ | k
    · exact h0
    · have h1 : ((k : K) + 1) ≠ 0 := by exact_mod_cast Nat.succ_ne_zero k
      apply mul_left_cancel₀ h1
      rw [h k (by omega), h' k (by omega)]
      refine Finset.sum_congr rfl fun s hs => ?_
      rw [ih (k - s) (by omega) (by omega)]

theorem coeff_expProd_zero (k : ℕ) (a : ℕ → K) : coeff k (expProd a 0) = if k = 0 then 1 else 0 := by
  simp [expProd, coeff_one]

/-- The accumulation loop with precomputed factors `a`. -/
theorem comb_loop (a : ℕ → K) (top M : ℕ) (jm : ℕ → ℕ) (hjm : ∀ i, 1 ≤ i → i ≤ M → top / i ≤ jm i) {σ : Type} (st0 : σ)
    (step : ℕ → σ → σ) (fac : ℕ → σ → K) (stAt : ℕ → σ) (h0 : stAt 1 = st0)
    (hstep : ∀ i, 1 ≤ i → i ≤ M → step i (stAt i) = stAt (i + 1)) (hfac : ∀ i, 1 ≤ i → i ≤ M → fac i (stAt i) = a i) :
    let r := forRange2 1 (M + 1) ((combInit : Comb K), st0) fun i st => (combStep top (jm i) i (fac i st.2) st.1, step i st.2)
    ∀ k ≤ top, r.1.comb r.1.count k = coeff k (expProd a M) := by
  have := forRange2_inv (a := 1) (b := M + 1)
    (fun i (st : Comb K × σ) => st.2 = stAt i ∧ st.1.count ≤ 1 ∧
      ∀ k ≤ top, st.1.comb st.1.count k = coeff k (expProd a (i - 1)))
    (by omega) ((combInit : Comb K), st0) (fun i st => (combStep top (jm i) i (fac i st.2) st.1, step i st.2))
    ⟨h0.symm, by simp [combInit], fun k _ => by rw [coeff_expProd_zero]; simp [combInit, upd2]⟩
    (by
      rintro i ⟨s, x⟩ hi1 hi2 ⟨e1, e2, e3⟩
      simp only at e1 e2 e3
      subst e1
      obtain ⟨c1, c2⟩ := combStep_spec top (jm i) i (fac i (stAt i)) s e2
      refine ⟨hstep i hi1 (by omega), by simp only; rw [c1]; omega, fun k hk => ?_⟩
      simp only
      rw [c1, c2 k hk]
      obtain ⟨i', rfl⟩ : ∃ i', i = i' + 1 := ⟨i - 1, by omega⟩
      rw [Nat.add_sub_cancel, expProd_succ, coeff_mul_expT (i' + 1) (Nat.succ_pos _) _ _ k (jm (i' + 1))
        ((Nat.div_le_div_right hk).trans (hjm _ hi1 (by omega)))]
      refine Finset.sum_congr rfl fun j _ => ?_
      split
      · rw [e3 _ (by omega), hfac _ hi1 (by omega), Nat.add_sub_cancel]
      · rfl)
  exact this.2.2

end series

end Verif
