/-
The exponential of a quadratic polynomial as a power series with loop hafnians as coefficients.
-/
import Verif.Lemmas.HermiteGrad
import Mathlib.Algebra.Order.Antidiag.Pi
import Mathlib.Analysis.Normed.Algebra.Exponential
import Mathlib.Analysis.SpecialFunctions.Exponential
import Mathlib.Topology.Algebra.InfiniteSum.Constructions
import Mathlib.Analysis.RCLike.Basic
import Mathlib.Analysis.Complex.Basic

set_option linter.unusedSectionVars false

namespace Verif.Lemmas.GaussS
open Finset Verif.Model Verif.Lemmas

section algebra
variable {K : Type} [Field K] [CharZero K] {d : ℕ}

/-- the monomial `z^k / k!` -/
noncomputable def mono (z : Fin d → K) (k : Fin d → ℕ) : K := ∏ i, z i ^ k i / (k i).factorial

/-- the loop hafnian with multiplicities `k` -/
noncomputable def H (A : ℕ → ℕ → K) (γ : ℕ → K) (k : Fin d → ℕ) : K := herm (fun i j => -A i j) γ (List.ofFn k)

theorem mono_succ (z : Fin d → K) (k : Fin d → ℕ) (i : Fin d) : ((k i : K) + 1) * mono z (k + Pi.single i 1) = z i * mono z k := by
  unfold mono
  rw [← Finset.mul_prod_erase univ _ (mem_univ i), ← Finset.mul_prod_erase univ (fun j => z j ^ k j / _) (mem_univ i)]
  have h1 : ∏ x ∈ univ.erase i, z x ^ (k + Pi.single i 1 : Fin d → ℕ) x / (((k + Pi.single i 1 : Fin d → ℕ) x).factorial : K) = ∏ x ∈ univ.erase i, z x ^ k x / ((k x).factorial : K) := by
    refine Finset.prod_congr rfl fun j hj => ?_
    rw [Pi.add_apply, Pi.single_eq_of_ne (Finset.ne_of_mem_erase hj), add_zero]
  rw [h1, Pi.add_apply, Pi.single_eq_same, Nat.factorial_succ]
  have h2 : ((k i).factorial : K) ≠ 0 := Nat.cast_ne_zero.mpr (Nat.factorial_ne_zero _)
  have h3 : ((k i : K) + 1) ≠ 0 := by exact_mod_cast (Nat.succ_ne_zero (k i))
  push_cast
  field_simp
  ring

/-- shifting an exponent -/
theorem sum_shift (n : ℕ) (i : Fin d) (g : (Fin d → ℕ) → K) :
    ∑ k ∈ piAntidiag univ (n + 1), (k i : K) * g k = ∑ k ∈ piAntidiag univ n, ((k i : K) + 1) * g (k + Pi.single i 1) := by
  rw [← Finset.sum_filter_add_sum_filter_not _ (fun k : Fin d → ℕ => k i ≠ 0)]
  rw [Finset.sum_eq_zero (s := (piAntidiag univ (n + 1)).filter fun k : Fin d → ℕ => ¬ k i ≠ 0), add_zero]
  · refine Finset.sum_bij' (fun k _ => k - Pi.single i 1) (fun k _ => k + Pi.single i 1) ?_ ?_ ?_ ?_ ?_
    · intro k hk
      simp only [mem_filter, mem_piAntidiag, mem_univ, implies_true, and_true] at hk ⊢
      have hle : Pi.single i 1 ≤ k := by
        intro j
        by_cases h : j = i
        · subst h; simp; omega
        · simp [Pi.single_eq_of_ne h]
      have := Finset.sum_tsub_distrib univ (f := k) (g := Pi.single i 1) fun j _ => hle j
      simp only [Pi.sub_apply]
      rw [this, hk.1, Finset.sum_pi_single']
      simp
    · intro k hk
      simp only [mem_filter, mem_piAntidiag, mem_univ, implies_true, and_true] at hk ⊢
      constructor
      · simp only [Pi.add_apply]
        rw [Finset.sum_add_distrib, hk, Finset.sum_pi_single']
        simp
      · simp
    · intro k hk
      simp only [mem_filter] at hk
      funext j
      by_cases h : j = i
      · subst h; simp; omega
      · simp [Pi.single_eq_of_ne h]
    · intro k _
      funext j
      simp
    · intro k hk
      simp only [mem_filter] at hk
      have e : k - Pi.single i 1 + Pi.single i 1 = k := by
        funext j
        by_cases h : j = i
        · subst h; simp; omega
        · simp [Pi.single_eq_of_ne h]
      rw [e]
      congr 1
      simp only [Pi.sub_apply, Pi.single_eq_same]
      have : 1 ≤ k i := by omega
      rw [Nat.cast_sub this]; simp
  · intro k hk
    simp only [mem_filter, not_not] at hk
    rw [hk.2]; simp

variable (A : ℕ → ℕ → K) (hA : ∀ i < d, ∀ j < d, A i j = A j i) (γ : ℕ → K) (z : Fin d → K)

/-- the part of degree `n` -/
noncomputable def T (n : ℕ) : K := ∑ k ∈ piAntidiag univ n, H A γ k * mono z k

/-- the quadratic part -/
def qd : K := ∑ i : Fin d, ∑ j : Fin d, z i * A i j * z j

/-- the linear part -/
def ln : K := ∑ i : Fin d, γ i * z i

include hA in
theorem H_succ (k : Fin d → ℕ) (i : Fin d) :
    H A γ (k + Pi.single i 1) = γ i * H A γ k + ∑ j : Fin d, A i j * (k j : K) * H A γ (k - Pi.single j 1) := by
  unfold H
  rw [herm_pivot _ _ (fun i hi j hj => by rw [hA i hi j hj])]
  simp only [neg_mul, Finset.sum_neg_distrib, sub_neg_eq_add]

theorem H_zero : H A γ (0 : Fin d → ℕ) = 1 := by
  unfold H
  have : List.ofFn (0 : Fin d → ℕ) = List.replicate d 0 := List.ofFn_const d 0
  rw [this, herm_zero]

theorem T_zero : T A γ z 0 = 1 := by
  unfold T
  rw [piAntidiag_zero, Finset.sum_singleton, H_zero]
  simp [mono]

theorem degree_sum (n : ℕ) (g : (Fin d → ℕ) → K) :
    ((n : K) + 1) * ∑ k ∈ piAntidiag univ (n + 1), g k = ∑ i : Fin d, ∑ k ∈ piAntidiag univ n, ((k i : K) + 1) * g (k + Pi.single i 1) := by
  simp only [← sum_shift]
  rw [Finset.sum_comm, Finset.mul_sum]
  refine Finset.sum_congr rfl fun k hk => ?_
  rw [← Finset.sum_mul]
  congr 1
  rw [mem_piAntidiag] at hk
  have := hk.1
  exact_mod_cast this.symm

include hA in
theorem T_succ (n : ℕ) : ((n : K) + 1) * T A γ z (n + 1) = ln γ z * T A γ z n + ∑ i : Fin d, ∑ j : Fin d, z i * A i j *
    ∑ k ∈ piAntidiag univ n, (k j : K) * (H A γ (k - Pi.single j 1) * mono z k) := by
  unfold T ln
  rw [degree_sum, Finset.sum_mul, ← Finset.sum_add_distrib]
  refine Finset.sum_congr rfl fun i _ => ?_
  simp only [Finset.mul_sum]
  rw [Finset.sum_comm, ← Finset.sum_add_distrib]
  refine Finset.sum_congr rfl fun k _ => ?_
  rw [H_succ A hA]
  have := mono_succ z k i
  calc _ = (((k i : K) + 1) * mono z (k + Pi.single i 1)) * (γ i * H A γ k + ∑ j : Fin d, A i j * (k j : K) * H A γ (k - Pi.single j 1)) := by ring
    _ = _ := by
      rw [this, mul_add, Finset.mul_sum]
      congr 1
      · ring
      · refine Finset.sum_congr rfl fun j _ => ?_
        ring

include hA in
theorem T_one : T A γ z 1 = ln γ z := by
  have h := T_succ A hA γ z 0
  rw [T_zero] at h
  simp only [piAntidiag_zero, Finset.sum_singleton, Pi.zero_apply, Nat.cast_zero, zero_mul, mul_zero, Finset.sum_const_zero, add_zero, zero_add, one_mul, mul_one] at h
  exact h

include hA in
theorem T_rec (n : ℕ) : ((n : K) + 2) * T A γ z (n + 2) = ln γ z * T A γ z (n + 1) + qd A z * T A γ z n := by
  have h := T_succ A hA γ z (n + 1)
  push_cast at h
  rw [show (n : K) + 2 = n + 1 + 1 by ring, h]
  congr 1
  unfold qd T
  rw [Finset.sum_mul]
  refine Finset.sum_congr rfl fun i _ => ?_
  rw [Finset.sum_mul]
  refine Finset.sum_congr rfl fun j _ => ?_
  rw [sum_shift, mul_assoc (z i * A i j), Finset.mul_sum (a := z j)]
  congr 1
  refine Finset.sum_congr rfl fun k _ => ?_
  have e : k + Pi.single j 1 - Pi.single j 1 = k := by funext a; simp
  rw [e]
  have := mono_succ z k j
  linear_combination H A γ k * this

/-- the coefficients of the exponential of a quadratic polynomial in one variable -/
def coef (q l : K) (n : ℕ) : K := ∑ a ∈ range (n / 2 + 1), (q / 2) ^ a / a.factorial * (l ^ (n - 2 * a) / (n - 2 * a).factorial)

theorem pow_fact (x : K) (n : ℕ) : ((n : K) + 1) * (x ^ (n + 1) / (n + 1).factorial) = x * (x ^ n / n.factorial) := by
  have h2 : (n.factorial : K) ≠ 0 := Nat.cast_ne_zero.mpr (Nat.factorial_ne_zero _)
  have h3 : ((n : K) + 1) ≠ 0 := by exact_mod_cast (Nat.succ_ne_zero n)
  rw [Nat.factorial_succ]; push_cast
  field_simp
  ring

theorem coef_rec (q l : K) (n : ℕ) : ((n : K) + 2) * coef q l (n + 2) = l * coef q l (n + 1) + q * coef q l n := by
  have h1 : ∑ a ∈ range ((n + 2) / 2 + 1), ((2 * a : ℕ) : K) * ((q / 2) ^ a / a.factorial * (l ^ (n + 2 - 2 * a) / (n + 2 - 2 * a).factorial)) = q * coef q l n := by
    rw [Finset.sum_range_succ', show (n + 2) / 2 = n / 2 + 1 by omega]
    unfold coef
    rw [Finset.mul_sum]
    simp only [mul_zero, Nat.cast_zero, zero_mul, add_zero]
    refine Finset.sum_congr rfl fun a _ => ?_
    rw [show n + 2 - 2 * (a + 1) = n - 2 * a by omega]
    have := pow_fact (q / 2) a
    push_cast
    linear_combination (2 * (l ^ (n - 2 * a) / (n - 2 * a).factorial)) * this
  have h2 : ∑ a ∈ range ((n + 2) / 2 + 1), ((n + 2 - 2 * a : ℕ) : K) * ((q / 2) ^ a / a.factorial * (l ^ (n + 2 - 2 * a) / (n + 2 - 2 * a).factorial)) = l * coef q l (n + 1) := by
    unfold coef
    rw [Finset.mul_sum]
    symm
    refine Finset.sum_subset_zero_on_sdiff (by intro x; simp only [mem_range]; omega) ?_ ?_
    · intro x hx
      simp only [mem_sdiff, mem_range] at hx
      rw [show n + 2 - 2 * x = 0 by omega]; simp
    · intro x hx
      simp only [mem_range] at hx
      rw [show n + 2 - 2 * x = n + 1 - 2 * x + 1 by omega]
      have := pow_fact l (n + 1 - 2 * x)
      push_cast
      linear_combination (-((q / 2) ^ x / x.factorial)) * this
  rw [← h1, ← h2, ← Finset.sum_add_distrib]
  unfold coef
  rw [Finset.mul_sum]
  refine Finset.sum_congr rfl fun a ha => ?_
  simp only [mem_range] at ha
  rw [← add_mul]
  congr 1
  rw [← Nat.cast_add, show n + 2 - 2 * a + 2 * a = n + 2 by omega]
  push_cast; ring

include hA in
theorem T_coef (n : ℕ) : T A γ z n = coef (qd A z) (ln γ z) n := by
  induction n using Nat.strong_induction_on with
  | _ n ih =>
    match n with
    | 0 => rw [T_zero]; simp [coef]
    | 1 => rw [T_one A hA]; simp [coef]
    | n + 2 =>
      have h := T_rec A hA γ z n
      rw [ih n (by omega), ih (n + 1) (by omega), ← coef_rec] at h
      have h3 : ((n : K) + 2) ≠ 0 := by exact_mod_cast (Nat.succ_ne_zero (n + 1))
      exact mul_left_cancel₀ h3 h

end algebra

section analysis
variable {K : Type} [RCLike K] {d : ℕ}

/-- the terms of the double series, indexed by total degree and half the even part -/
def dbl (x y : ℕ → K) (p : ℕ × ℕ) : K := if 2 * p.2 ≤ p.1 then x p.2 * y (p.1 - 2 * p.2) else 0

theorem dbl_hasSum (x y : ℕ → K) (s : K) (h : HasSum (fun p : ℕ × ℕ => x p.1 * y p.2) s) :
    HasSum (fun n => ∑ a ∈ range (n / 2 + 1), x a * y (n - 2 * a)) s := by
  have hg : Function.Injective fun p : ℕ × ℕ => (2 * p.1 + p.2, p.1) := by
    rintro ⟨a, b⟩ ⟨c, e⟩ h
    simp only [Prod.mk.injEq] at h ⊢
    omega
  have hf : ∀ q ∉ Set.range (fun p : ℕ × ℕ => (2 * p.1 + p.2, p.1)), dbl x y q = 0 := by
    rintro ⟨n, a⟩ h
    unfold dbl
    rw [if_neg]
    intro hle
    dsimp only at hle
    refine h ⟨(a, n - 2 * a), ?_⟩
    simp only [Prod.mk.injEq, and_true]
    omega
  have h4 : HasSum (dbl x y) s := by
    rw [← hg.hasSum_iff hf]
    have e : dbl x y ∘ (fun p : ℕ × ℕ => (2 * p.1 + p.2, p.1)) = fun p : ℕ × ℕ => x p.1 * y p.2 := by
      funext p
      unfold dbl
      simp only [Function.comp]
      rw [if_pos (by omega), show 2 * p.1 + p.2 - 2 * p.1 = p.2 by omega]
    rw [e]
    exact h
  refine h4.prod_fiberwise fun n => ?_
  have : ∑ a ∈ range (n / 2 + 1), x a * y (n - 2 * a) = ∑ a ∈ range (n / 2 + 1), dbl x y (n, a) := by
    refine Finset.sum_congr rfl fun a ha => ?_
    simp only [mem_range] at ha
    unfold dbl
    dsimp only
    rw [if_pos (by omega)]
  rw [this]
  refine hasSum_sum_of_ne_finset_zero fun a ha => ?_
  simp only [mem_range] at ha
  unfold dbl
  dsimp only
  rw [if_neg (by omega)]

/-- an exponential function of the field -/
structure IsExp (E : K → K) : Prop where
  sums : ∀ x, HasSum (fun n : ℕ => x ^ n / (n.factorial : K)) (E x)
  abs : ∀ x : K, Summable fun n : ℕ => ‖x ^ n / (n.factorial : K)‖
  add : ∀ x y, E (x + y) = E x * E y

theorem coef_hasSum {E : K → K} (hE : IsExp E) (q l : K) : HasSum (coef q l) (E (q / 2 + l)) := by
  have h0 : Summable fun p : ℕ × ℕ => (q / 2) ^ p.1 / (p.1.factorial : K) * (l ^ p.2 / (p.2.factorial : K)) :=
    summable_mul_of_summable_norm (R := K) (f := fun n : ℕ => (q / 2) ^ n / (n.factorial : K)) (g := fun n : ℕ => l ^ n / (n.factorial : K)) (hE.abs _) (hE.abs _)
  have h3 := (hE.sums (q / 2)).mul (hE.sums l) h0
  rw [← hE.add] at h3
  exact dbl_hasSum (fun a => (q / 2) ^ a / a.factorial) (fun b => l ^ b / b.factorial) _ h3

theorem isExp_real : IsExp (K := ℝ) Real.exp where
  sums x := by
    rw [Real.exp_eq_exp_ℝ]
    exact NormedSpace.expSeries_div_hasSum_exp x
  abs x := NormedSpace.norm_expSeries_div_summable x
  add := Real.exp_add

theorem isExp_complex : IsExp (K := ℂ) Complex.exp where
  sums x := by
    rw [Complex.exp_eq_exp_ℂ]
    exact NormedSpace.expSeries_div_hasSum_exp x
  abs x := NormedSpace.norm_expSeries_div_summable x
  add := Complex.exp_add

theorem H_norm (A : ℕ → ℕ → K) (hA : ∀ i < d, ∀ j < d, A i j = A j i) (γ : ℕ → K) (n : ℕ) :
    ∀ k : Fin d → ℕ, ∑ i, k i = n → ‖H A γ k‖ ≤ H (fun i j => ‖A i j‖) (fun i => ‖γ i‖) k := by
  have hA' : ∀ i < d, ∀ j < d, ‖A i j‖ = ‖A j i‖ := fun i hi j hj => by rw [hA i hi j hj]
  induction n using Nat.strong_induction_on with
  | _ n ih =>
    intro k hk
    by_cases h0 : k = 0
    · subst h0
      rw [H_zero, H_zero]; simp
    · obtain ⟨i, hi⟩ : ∃ i, k i ≠ 0 := by
        by_contra h
        push Not at h
        exact h0 (funext h)
      have e : k - Pi.single i 1 + Pi.single i 1 = k := by
        funext j
        by_cases h : j = i
        · subst h; simp; omega
        · simp [Pi.single_eq_of_ne h]
      set k' := k - Pi.single i 1 with hk'
      have hs : ∑ j, k' j + 1 = n := by
        rw [← hk, ← e]
        simp only [Pi.add_apply]
        rw [Finset.sum_add_distrib, Finset.sum_pi_single']
        simp
      rw [← e, H_succ A hA, H_succ (fun i j => ‖A i j‖) hA']
      refine (norm_add_le _ _).trans (add_le_add ?_ ?_)
      · rw [norm_mul]
        exact mul_le_mul_of_nonneg_left (ih _ (by omega) k' rfl) (norm_nonneg _)
      · refine (norm_sum_le _ _).trans (Finset.sum_le_sum fun j _ => ?_)
        rw [norm_mul, norm_mul, RCLike.norm_natCast]
        refine mul_le_mul_of_nonneg_left ?_ (by positivity)
        by_cases hj : k' j = 0
        · have : k' - Pi.single j 1 = k' := by
            funext a
            by_cases h : a = j
            · subst h; simp [hj]
            · simp [Pi.single_eq_of_ne h]
          rw [this]
          exact ih _ (by omega) k' rfl
        · refine ih (∑ a, (k' - Pi.single j 1 : Fin d → ℕ) a) ?_ _ rfl
          refine lt_of_le_of_lt (Finset.sum_le_sum (g := k') fun a _ => ?_) (by omega)
          simp only [Pi.sub_apply]; omega

theorem mono_norm (z : Fin d → K) (k : Fin d → ℕ) : ‖mono z k‖ = mono (fun i => ‖z i‖) k := by
  unfold mono
  rw [norm_prod]
  refine Finset.prod_congr rfl fun i _ => ?_
  rw [norm_div, norm_pow, RCLike.norm_natCast]

theorem H_nonneg (A : ℕ → ℕ → ℝ) (hA : ∀ i < d, ∀ j < d, A i j = A j i) (γ : ℕ → ℝ) (h : ∀ i j, 0 ≤ A i j) (h' : ∀ i, 0 ≤ γ i) (k : Fin d → ℕ) :
    0 ≤ H A γ k := by
  have := (norm_nonneg _).trans (H_norm A hA γ _ k rfl)
  simpa [Real.norm_eq_abs, abs_of_nonneg, h, h'] using this

/-- series indexed by exponents and by degree and exponents -/
def byDegree {ι : Type} [Fintype ι] {M : Type} [Zero M] (f : (ι → ℕ) → M) : ℕ × (ι → ℕ) → M := fun p => if ∑ i, p.2 i = p.1 then f p.2 else 0

theorem degree_inj {ι : Type} [Fintype ι] : Function.Injective fun k : ι → ℕ => (∑ i, k i, k) := by
  intro a b h
  simp only [Prod.mk.injEq] at h
  exact h.2

theorem byDegree_out {ι : Type} [Fintype ι] {M : Type} [Zero M] (f : (ι → ℕ) → M) : ∀ x ∉ Set.range (fun k : ι → ℕ => (∑ i, k i, k)), byDegree f x = 0 := by
  rintro ⟨n, k⟩ h
  unfold byDegree
  rw [if_neg]
  intro hn
  exact h ⟨k, by simp only [Prod.mk.injEq, and_true]; exact hn⟩

theorem byDegree_comp {ι : Type} [Fintype ι] {M : Type} [Zero M] (f : (ι → ℕ) → M) : byDegree f ∘ (fun k : ι → ℕ => (∑ i, k i, k)) = f := by
  funext k
  simp [byDegree]

theorem byDegree_fib {ι : Type} [Fintype ι] [DecidableEq ι] {M : Type} [AddCommMonoid M] [TopologicalSpace M] (f : (ι → ℕ) → M) (n : ℕ) :
    HasSum (fun k => byDegree f (n, k)) (∑ k ∈ piAntidiag univ n, f k) := by
  have : ∑ k ∈ piAntidiag univ n, f k = ∑ k ∈ piAntidiag univ n, byDegree f (n, k) := by
    refine Finset.sum_congr rfl fun k hk => ?_
    rw [mem_piAntidiag] at hk
    unfold byDegree
    rw [if_pos hk.1]
  rw [this]
  refine hasSum_sum_of_ne_finset_zero fun k hk => ?_
  unfold byDegree
  rw [if_neg]
  intro h
  exact hk (by rw [mem_piAntidiag]; exact ⟨h, by simp⟩)

theorem gauss_summable (A : ℕ → ℕ → K) (hA : ∀ i < d, ∀ j < d, A i j = A j i) (γ : ℕ → K) (z : Fin d → K) :
    Summable fun k : Fin d → ℕ => ‖H A γ k * mono z k‖ := by
  have hA' : ∀ i < d, ∀ j < d, ‖A i j‖ = ‖A j i‖ := fun i hi j hj => by rw [hA i hi j hj]
  have hm : ∀ k, 0 ≤ H (fun i j => ‖A i j‖) (fun i => ‖γ i‖) k * mono (fun i => ‖z i‖) k := fun k =>
    mul_nonneg (H_nonneg _ hA' _ (fun _ _ => norm_nonneg _) (fun _ => norm_nonneg _) k) (Finset.prod_nonneg fun i _ => by positivity)
  refine Summable.of_nonneg_of_le (fun _ => norm_nonneg _) (fun k => ?_) (?_ : Summable fun k : Fin d → ℕ => H (fun i j => ‖A i j‖) (fun i => ‖γ i‖) k * mono (fun i => ‖z i‖) k)
  · rw [norm_mul, mono_norm]
    exact mul_le_mul_of_nonneg_right (H_norm A hA γ _ k rfl) (Finset.prod_nonneg fun i _ => by positivity)
  · set f := fun k : Fin d → ℕ => H (fun i j => ‖A i j‖) (fun i => ‖γ i‖) k * mono (fun i => ‖z i‖) k with hf
    have : Summable (byDegree f) := by
      rw [summable_prod_of_nonneg]
      · refine ⟨fun n => (byDegree_fib f n).summable, ?_⟩
        simp only [(byDegree_fib f _).tsum_eq]
        have := (coef_hasSum isExp_real (qd (fun i j => ‖A i j‖) fun i => ‖z i‖) (ln (fun i => ‖γ i‖) fun i => ‖z i‖)).summable
        refine this.congr fun n => ?_
        rw [← T_coef _ hA']
        rfl
      · intro p
        unfold byDegree
        split_ifs
        · exact hm _
        · exact le_rfl
    rw [← degree_inj.summable_iff (byDegree_out f), byDegree_comp] at this
    exact this

/-- `exp(½ zᵀAz + γᵀz)` is the sum of the loop hafnians times `z^k / k!` -/
theorem gauss_hasSum {E : K → K} (hE : IsExp E) (A : ℕ → ℕ → K) (hA : ∀ i < d, ∀ j < d, A i j = A j i) (γ : ℕ → K) (z : Fin d → K) :
    HasSum (fun k : Fin d → ℕ => H A γ k * mono z k) (E (qd A z / 2 + ln γ z)) := by
  have hs := (gauss_summable A hA γ z).of_norm
  obtain ⟨s, hs⟩ := hs
  have h2 : HasSum (byDegree fun k => H A γ k * mono z k) s := by
    rw [← degree_inj.hasSum_iff (byDegree_out _), byDegree_comp]
    exact hs
  have h3 := h2.prod_fiberwise fun n => byDegree_fib _ n
  have h4 := coef_hasSum hE (qd A z) (ln γ z)
  have : (fun n => ∑ k ∈ piAntidiag univ n, H A γ k * mono z k) = coef (qd A z) (ln γ z) := by
    funext n
    rw [← T_coef A hA]; rfl
  rw [this] at h3
  rw [h3.unique h4] at hs
  exact hs

end analysis

end Verif.Lemmas.GaussS
