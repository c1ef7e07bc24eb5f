/- Multivariate finite differences (Glynn-type and inclusion/exclusion sieves). -/
import Mathlib.Algebra.Group.ForwardDiff
import Mathlib.Data.Nat.Choose.Multinomial
import Mathlib.Algebra.MvPolynomial.Eval
import Mathlib.Algebra.MvPolynomial.Degrees
import Mathlib.Data.Fintype.Pi
import Mathlib.Algebra.BigOperators.Field
import Mathlib.Algebra.BigOperators.Fin
import Mathlib.Tactic.FieldSimp
import Mathlib.Tactic.LinearCombination

set_option linter.unusedSectionVars false
set_option linter.unusedSimpArgs false

namespace Verif

open Finset MvPolynomial

variable {ε : Type*} [Fintype ε] [DecidableEq ε] {K : Type*} [Field K] [CharZero K]

theorem fd_pow_nat (r j : ℕ) (hj : j ≤ r) :
    ∑ k ∈ range (r + 1), ((-1 : K) ^ (r - k) * (r.choose k : K)) * (k : K) ^ j
      = if j = r then (r.factorial : K) else 0 := by
  have h := fwdDiff_iter_eq_sum_shift (h := (1 : K)) (fun x : K => x ^ j) r 0
  have h2 : (fwdDiff (1 : K))^[r] (fun x : K => x ^ j) 0 = if j = r then (r.factorial : K) else 0 := by
    split
    · rename_i h; subst h; rw [fwdDiff_iter_eq_factorial]; simp
    · rename_i hne; rw [fwdDiff_iter_pow_eq_zero_of_lt (by omega)]; rfl
  rw [← h2, h]
  refine Finset.sum_congr rfl fun k _ => ?_
  rw [zsmul_eq_mul]; push_cast; simp

theorem fd_pow (α β : K) (r m : ℕ) (hm : m ≤ r) :
    ∑ k ∈ range (r + 1), ((-1 : K) ^ (r - k) * (r.choose k : K)) * (α * k + β) ^ m
      = if m = r then α ^ r * (r.factorial : K) else 0 := by
  have : ∀ k ∈ range (r + 1), ((-1 : K) ^ (r - k) * (r.choose k : K)) * (α * k + β) ^ m
      = ∑ j ∈ range (m + 1), (α ^ j * β ^ (m - j) * (m.choose j : K)) *
          (((-1 : K) ^ (r - k) * (r.choose k : K)) * (k : K) ^ j) := by
    intro k _
    rw [add_pow, Finset.mul_sum]
    refine Finset.sum_congr rfl fun j _ => ?_
    rw [mul_pow]; ring
  rw [Finset.sum_congr rfl this, Finset.sum_comm]
  simp only [← Finset.mul_sum]
  rw [Finset.sum_congr rfl (g := fun j => (α ^ j * β ^ (m - j) * (m.choose j : K)) *
    (if j = r then (r.factorial : K) else 0))]
  · by_cases h : m = r
    · subst h; simp
    · rw [if_neg h]
      apply Finset.sum_eq_zero
      intro j hj
      have : j ≠ r := by simp at hj; omega
      simp [this]
  · intro j hj
    rw [fd_pow_nat r j (by simp at hj; omega)]

/-- the sieve: alternating binomial sum of `F` over the box `0 ≤ κ ≤ r`, at the points `α κ + β` -/
def fdSum (r : ε → ℕ) (α : K) (β : ε → K) (F : (ε → K) → K) : K :=
  ∑ κ ∈ Fintype.piFinset (fun e => range (r e + 1)),
    (∏ e, ((-1 : K) ^ (r e - κ e) * ((r e).choose (κ e) : K))) * F (fun e => α * κ e + β e)

theorem fdSum_add (r : ε → ℕ) (α : K) (β : ε → K) (F G : (ε → K) → K) :
    fdSum r α β (fun w => F w + G w) = fdSum r α β F + fdSum r α β G := by
  simp only [fdSum, mul_add, Finset.sum_add_distrib]

theorem fdSum_const_mul (r : ε → ℕ) (α : K) (β : ε → K) (c : K) (F : (ε → K) → K) :
    fdSum r α β (fun w => c * F w) = c * fdSum r α β F := by
  simp only [fdSum, Finset.mul_sum]
  refine Finset.sum_congr rfl fun κ _ => ?_
  ring

theorem fdSum_sum {ι : Type*} (s : Finset ι) (r : ε → ℕ) (α : K) (β : ε → K) (F : ι → (ε → K) → K) :
    fdSum r α β (fun w => ∑ i ∈ s, F i w) = ∑ i ∈ s, fdSum r α β (F i) := by
  simp only [fdSum, Finset.mul_sum]
  rw [Finset.sum_comm]

theorem fdSum_monomial (r : ε → ℕ) (α : K) (β : ε → K) (m : ε → ℕ) :
    fdSum r α β (fun w => ∏ e, w e ^ m e)
      = ∏ e, ∑ k ∈ range (r e + 1), ((-1 : K) ^ (r e - k) * ((r e).choose k : K)) * (α * k + β e) ^ m e := by
  rw [Finset.prod_univ_sum, fdSum]
  refine Finset.sum_congr rfl fun κ _ => ?_
  rw [← Finset.prod_mul_distrib]

theorem fdSum_monomial_eq (r : ε → ℕ) (α : K) (β : ε → K) (m : ε → ℕ) (h : ∑ e, m e ≤ ∑ e, r e) :
    fdSum r α β (fun w => ∏ e, w e ^ m e)
      = if m = r then ∏ e, (α ^ r e * ((r e).factorial : K)) else 0 := by
  rw [fdSum_monomial]
  split
  · rename_i hm
    subst hm
    refine Finset.prod_congr rfl fun e _ => ?_
    rw [fd_pow _ _ _ _ le_rfl, if_pos rfl]
  · rename_i hm
    obtain ⟨e, he⟩ : ∃ e, m e < r e := by
      by_contra hcon
      push Not at hcon
      apply hm
      funext e
      by_contra hne
      have hlt : r e < m e := lt_of_le_of_ne (hcon e) (Ne.symm hne)
      have := Finset.sum_lt_sum (fun i (_ : i ∈ univ) => hcon i) ⟨e, mem_univ e, hlt⟩
      omega
    apply Finset.prod_eq_zero (mem_univ e)
    rw [fd_pow _ _ _ _ he.le, if_neg (by omega)]

/-- `F` is a polynomial function of degree at most `d` -/
def PolyDeg (d : ℕ) (F : (ε → K) → K) : Prop :=
  ∃ P : MvPolynomial ε K, P.totalDegree ≤ d ∧ ∀ w, F w = eval w P

theorem fdSum_polyDeg {r : ε → ℕ} {α : K} {β : ε → K} {F : (ε → K) → K} {d : ℕ} (hF : PolyDeg d F)
    (hd : d < ∑ e, r e) : fdSum r α β F = 0 := by
  obtain ⟨P, hP, hFP⟩ := hF
  have : F = fun w => ∑ s ∈ P.support, P.coeff s * ∏ e, w e ^ s e := by
    funext w
    rw [hFP, eval_eq']
  rw [this, fdSum_sum]
  apply Finset.sum_eq_zero
  intro s hs
  rw [fdSum_const_mul]
  have hle : ∑ e, s e ≤ d := by
    have := le_totalDegree hs
    rw [Finsupp.sum_fintype _ _ (fun _ => rfl)] at this
    exact this.trans hP
  rw [fdSum_monomial_eq r α β _ (by omega), if_neg, mul_zero]
  intro h
  have : ∑ e, s e = ∑ e, r e := by rw [← h]
  omega

theorem PolyDeg.mono {d d' : ℕ} {F : (ε → K) → K} (h : PolyDeg d F) (hd : d ≤ d') : PolyDeg d' F := by
  obtain ⟨P, h1, h2⟩ := h; exact ⟨P, h1.trans hd, h2⟩

theorem PolyDeg.const (c : K) : PolyDeg (ε := ε) 0 (fun _ => c) := ⟨C c, by simp, by simp⟩

theorem PolyDeg.var (e : ε) : PolyDeg (K := K) 1 (fun w => w e) := ⟨X e, by simp, by simp⟩

theorem PolyDeg.add {d : ℕ} {F G : (ε → K) → K} (hF : PolyDeg d F) (hG : PolyDeg d G) :
    PolyDeg d (fun w => F w + G w) := by
  obtain ⟨P, h1, h2⟩ := hF; obtain ⟨Q, h3, h4⟩ := hG
  exact ⟨P + Q, (totalDegree_add _ _).trans (max_le h1 h3), by simp [h2, h4]⟩

theorem PolyDeg.mul {d d' : ℕ} {F G : (ε → K) → K} (hF : PolyDeg d F) (hG : PolyDeg d' G) :
    PolyDeg (d + d') (fun w => F w * G w) := by
  obtain ⟨P, h1, h2⟩ := hF; obtain ⟨Q, h3, h4⟩ := hG
  exact ⟨P * Q, (totalDegree_mul _ _).trans (Nat.add_le_add h1 h3), by simp [h2, h4]⟩

theorem PolyDeg.sum {ι : Type*} (s : Finset ι) {d : ℕ} {F : ι → (ε → K) → K} (hF : ∀ i ∈ s, PolyDeg d (F i)) :
    PolyDeg d (fun w => ∑ i ∈ s, F i w) := by
  classical
  induction s using Finset.induction_on with
  | empty => simpa using (PolyDeg.const (ε := ε) (0 : K)).mono (Nat.zero_le d)
  | insert a s ha ih =>
    simp only [Finset.sum_insert ha]
    exact (hF a (by simp)).add (ih fun i hi => hF i (by simp [hi]))

theorem PolyDeg.const_mul {d : ℕ} {F : (ε → K) → K} (c : K) (hF : PolyDeg d F) :
    PolyDeg d (fun w => c * F w) := by
  simpa using (PolyDeg.const (ε := ε) c).mul hF

theorem PolyDeg.pow {d : ℕ} {F : (ε → K) → K} (hF : PolyDeg d F) (k : ℕ) : PolyDeg (k * d) (fun w => F w ^ k) := by
  induction k with
  | zero => simpa using PolyDeg.const (ε := ε) (1 : K)
  | succ k ih =>
    simp only [pow_succ]
    exact (ih.mul hF).mono (by rw [Nat.succ_mul])

/-- The sieve applied to a linear functional of `(Σ w_e y_e)^n`. -/
theorem fdSum_linear_pow {R : Type*} [CommRing R] [Algebra K R] (L : R →ₗ[K] K) (y : ε → R) (r : ε → ℕ)
    (α : K) (β : ε → K) :
    fdSum r α β (fun w => L ((∑ e, w e • y e) ^ (∑ e, r e)))
      = ((∑ e, r e).factorial : K) * α ^ (∑ e, r e) * L (∏ e, y e ^ r e) := by
  have h1 : ∀ w : ε → K, L ((∑ e, w e • y e) ^ (∑ e, r e))
      = ∑ m ∈ piAntidiag univ (∑ e, r e), (Nat.multinomial univ m * L (∏ e, y e ^ m e)) * ∏ e, w e ^ m e := by
    intro w
    rw [Finset.sum_pow_eq_sum_piAntidiag, map_sum]
    refine Finset.sum_congr rfl fun m _ => ?_
    have : (Nat.multinomial univ m : R) * ∏ e, (w e • y e) ^ m e
        = ((Nat.multinomial univ m : K) * ∏ e, w e ^ m e) • ∏ e, y e ^ m e := by
      simp only [smul_pow, Algebra.smul_def, Finset.prod_mul_distrib, map_mul, map_natCast, map_prod, map_pow]
      simp only [mul_pow]
      rw [Finset.prod_mul_distrib]; ring
    rw [this, map_smul, smul_eq_mul]; ring
  simp only [h1]
  rw [fdSum_sum]
  simp only [fdSum_const_mul]
  rw [Finset.sum_eq_single r]
  · rw [fdSum_monomial_eq _ _ _ _ le_rfl, if_pos rfl, Finset.prod_mul_distrib, Finset.prod_pow_eq_pow_sum]
    have := Nat.multinomial_spec univ r
    have h2 : ((∑ e, r e).factorial : K) = (∏ e, ((r e).factorial : K)) * Nat.multinomial univ r := by
      rw [← this]; push_cast; rfl
    rw [h2]; ring
  · intro m hm hne
    have : ∑ e, m e = ∑ e, r e := by simpa using hm
    rw [fdSum_monomial_eq _ _ _ _ this.le, if_neg hne, mul_zero]
  · intro h; exact absurd (by simp) h

end Verif
