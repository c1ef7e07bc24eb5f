/-
Power series of total photon numbers: uniqueness of coefficients, sums over occupation numbers of given total, Cauchy products, the negative binomial series.
-/
import Verif.Lemmas.GaussSeries
import Verif.Model.PhotonDistributions
import Verif.Spec.Channels
import Mathlib.Analysis.Analytic.Binomial
import Mathlib.Analysis.Normed.Ring.InfiniteSum
import Mathlib.Analysis.SpecialFunctions.Gamma.Deriv

set_option linter.style.longLine false
set_option linter.unusedVariables false

namespace Verif.Lemmas.Tot
open Verif.Lemmas.GaussS Verif.Model.Dist Finset

/-- a power series that vanishes on `(0, 1)` is zero -/
theorem coeff_zero (c : ℕ → ℝ) (h : ∀ x : ℝ, 0 < x → x < 1 → HasSum (fun k => c k * x ^ k) 0) : ∀ k, c k = 0 := by
  intro n
  induction n using Nat.strong_induction_on with
  | _ n ih =>
    have hsum : Summable fun k => |c (n + 1 + k)| * (1 / 2 : ℝ) ^ k := by
      have h1 := (h (1 / 2) (by norm_num) (by norm_num)).summable.abs
      have h2 := ((summable_nat_add_iff (n + 1)).mpr h1).mul_right ((2 : ℝ) ^ (n + 1))
      refine h2.congr fun k => ?_
      rw [abs_mul, abs_of_nonneg (by positivity : (0 : ℝ) ≤ (1 / 2) ^ (k + (n + 1))), add_comm k (n + 1), pow_add, mul_assoc]
      have : (1 / 2 : ℝ) ^ (n + 1) * 2 ^ (n + 1) = 1 := by rw [← mul_pow]; norm_num
      linear_combination |c (n + 1 + k)| * (1 / 2) ^ k * this
    have key : ∀ x : ℝ, 0 < x → x ≤ 1 / 2 → |c n| ≤ x * ∑' k, |c (n + 1 + k)| * (1 / 2 : ℝ) ^ k := by
      intro x hx hx2
      have h1 := h x hx (by linarith)
      have h2 := (hasSum_nat_add_iff' (n + 1)).mpr h1
      have h3 : ∑ i ∈ range (n + 1), c i * x ^ i = c n * x ^ n := by
        rw [Finset.sum_range_succ, Finset.sum_eq_zero fun i hi => by rw [ih i (Finset.mem_range.mp hi), zero_mul], zero_add]
      rw [h3, zero_sub] at h2
      have hx' : x ^ (n + 1) ≠ 0 := by positivity
      have h4 : HasSum (fun k => c (n + 1 + k) * x ^ k) (-(c n * x ^ n) / x ^ (n + 1)) := by
        have := h2.div_const (x ^ (n + 1))
        refine this.congr_fun fun k => ?_
        rw [add_comm k (n + 1), pow_add]
        field_simp
      have h5 : -(c n * x ^ n) / x ^ (n + 1) = -c n / x := by rw [pow_succ]; field_simp
      rw [h5] at h4
      have hle : ∀ k, |c (n + 1 + k) * x ^ k| ≤ |c (n + 1 + k)| * (1 / 2 : ℝ) ^ k := by
        intro k
        rw [abs_mul, abs_of_nonneg (by positivity : (0 : ℝ) ≤ x ^ k)]
        exact mul_le_mul_of_nonneg_left (pow_le_pow_left₀ hx.le hx2 k) (abs_nonneg _)
      have h6 : |-c n / x| ≤ ∑' k, |c (n + 1 + k)| * (1 / 2 : ℝ) ^ k := by
        rw [← h4.tsum_eq]
        refine (norm_tsum_le_tsum_norm (f := fun k => c (n + 1 + k) * x ^ k) ?_).trans ?_
        · exact Summable.of_nonneg_of_le (fun k => norm_nonneg _) hle hsum
        · exact Summable.tsum_le_tsum hle (Summable.of_nonneg_of_le (fun k => norm_nonneg _) hle hsum) hsum
      rw [abs_div, abs_neg, abs_of_pos hx, div_le_iff₀ hx] at h6
      linarith
    generalize hC : (∑' k, |c (n + 1 + k)| * (1 / 2 : ℝ) ^ k) = C at key
    by_contra hne
    have hpos : 0 < |c n| := abs_pos.mpr hne
    have h1 := key (1 / 2) (by norm_num) le_rfl
    have hCpos : 0 < C := by linarith
    have h2 := key (min (1 / 2) (|c n| / (2 * C))) (lt_min (by norm_num) (by positivity)) (min_le_left _ _)
    have h3 : min (1 / 2) (|c n| / (2 * C)) * C ≤ |c n| / (2 * C) * C := mul_le_mul_of_nonneg_right (min_le_right _ _) hCpos.le
    have h4 : |c n| / (2 * C) * C = |c n| / 2 := by field_simp
    linarith

/-- coefficients of power series that agree on `(0, 1)` agree -/
theorem coeff_unique {a b : ℕ → ℝ} {G : ℝ → ℝ} (ha : ∀ x : ℝ, 0 < x → x < 1 → HasSum (fun k => a k * x ^ k) (G x)) (hb : ∀ x : ℝ, 0 < x → x < 1 → HasSum (fun k => b k * x ^ k) (G x)) : a = b := by
  funext k
  have := coeff_zero (fun k => a k - b k) (fun x h0 h1 => by
    have := (ha x h0 h1).sub (hb x h0 h1)
    rw [sub_self] at this
    exact this.congr_fun fun k => by ring) k
  linarith

/-- collecting a series over occupation numbers by the total number -/
theorem hasSum_total {ι : Type} [Fintype ι] [DecidableEq ι] {p : (ι → ℕ) → ℝ} {x S : ℝ} (h : HasSum (fun n => x ^ (∑ i, n i) * p n) S) :
    HasSum (fun k => (∑ n ∈ piAntidiag univ k, p n) * x ^ k) S := by
  have h1 : HasSum (byDegree fun n => x ^ (∑ i, n i) * p n) S := by
    refine (degree_inj.hasSum_iff (byDegree_out _)).mp ?_
    rw [byDegree_comp]; exact h
  have h2 := h1.prod_fiberwise (fun k => byDegree_fib (fun n => x ^ (∑ i, n i) * p n) k)
  refine h2.congr_fun fun k => ?_
  rw [Finset.sum_mul]
  refine Finset.sum_congr rfl fun n hn => ?_
  rw [(mem_piAntidiag.mp hn).1, mul_comm]

/-- product of two power series -/
theorem hasSum_cauchy {a b : ℕ → ℝ} {x A B : ℝ} (ha : HasSum (fun k => a k * x ^ k) A) (hb : HasSum (fun k => b k * x ^ k) B) :
    HasSum (fun k => (∑ i ∈ range (k + 1), a i * b (k - i)) * x ^ k) (A * B) := by
  have h1 := tsum_mul_tsum_eq_tsum_sum_range_of_summable_norm ha.summable.norm hb.summable.norm
  have h2 := (summable_norm_sum_mul_range_of_summable_norm ha.summable.norm hb.summable.norm).of_norm.hasSum
  rw [← h1, ha.tsum_eq, hb.tsum_eq] at h2
  refine h2.congr_fun fun k => ?_
  rw [Finset.sum_mul]
  refine Finset.sum_congr rfl fun i hi => ?_
  have : k = i + (k - i) := by have := Finset.mem_range.mp hi; omega
  rw [show x ^ k = x ^ i * x ^ (k - i) by rw [← pow_add]; congr 1]
  ring

theorem gamma_asc (r : ℝ) (hr : 0 < r) (k : ℕ) : Real.Gamma (r + k) = (ascPochhammer ℝ k).eval r * Real.Gamma r := by
  induction k with
  | zero => simp
  | succ k ih =>
    rw [Nat.cast_succ, ← add_assoc, Real.Gamma_add_one (by positivity), ih, ascPochhammer_succ_eval]
    ring

theorem choose_asc (r : ℝ) (k : ℕ) : Ring.choose (r + k - 1) k = (ascPochhammer ℝ k).eval r / k.factorial := by
  rw [← Ring.multichoose_eq, eq_div_iff (by positivity), mul_comm, ← nsmul_eq_mul, Ring.factorial_nsmul_multichoose_eq_ascPochhammer, Polynomial.ascPochhammer_smeval_eq_eval]

/-- `Γ(r + k)/(k! Γ(r))` is the coefficient of the binomial series -/
theorem gamma_coef (r : ℝ) (hr : 0 < r) (k : ℕ) : Real.Gamma (r + k) / (k.factorial * Real.Gamma r) = (ascPochhammer ℝ k).eval r / k.factorial := by
  rw [gamma_asc r hr, mul_comm (k.factorial : ℝ), mul_comm _ (Real.Gamma r), mul_div_mul_left _ _ (Real.Gamma_pos_of_pos hr).ne']

/-- the binomial series with negative exponent -/
theorem negBinomial_hasSum (r : ℝ) {z : ℝ} (hz : |z| < 1) : HasSum (fun k : ℕ => (ascPochhammer ℝ k).eval r / k.factorial * z ^ k) (1 / (1 - z) ^ r) := by
  have h := (Real.one_div_one_sub_rpow_hasFPowerSeriesOnBall_zero r).hasSum (y := z) (by simpa [enorm_eq_nnnorm] using! hz)
  rw [zero_add] at h
  refine h.congr_fun fun k => ?_
  rw [← choose_asc, FormalMultilinearSeries.apply_eq_pow_smul_coeff, FormalMultilinearSeries.coeff_ofScalars, smul_eq_mul, mul_comm]

/-- the photon-number distribution of `2r` identical squeezed vacua with `tanh² = 1 - q`, without cutoff -/
noncomputable def sqDist (q r : ℝ) (k : ℕ) : ℝ := if k % 2 = 0 then nbinomPmf (k / 2) q r else 0

theorem hasSum_even {f : ℕ → ℝ} {S : ℝ} (h : HasSum (fun k => f (2 * k)) S) (ho : ∀ k, f (2 * k + 1) = 0) : HasSum f S := by
  have h2 : HasSum (fun k => f (2 * k + 1)) 0 := hasSum_zero.congr_fun fun k => ho k
  have := HasSum.even_add_odd h h2
  rwa [add_zero] at this

theorem sqDist_even (t r : ℝ) (hr : 0 < r) (x : ℝ) (k : ℕ) : sqDist (1 - t ^ 2) r (2 * k) * x ^ (2 * k) = (1 - t ^ 2) ^ r * ((ascPochhammer ℝ k).eval r / k.factorial * (x ^ 2 * t ^ 2) ^ k) := by
  rw [sqDist, if_pos (by omega), Nat.mul_div_cancel_left k (by norm_num), nbinomPmf, gamma_coef r hr, sub_sub_cancel, pow_mul, mul_pow]
  ring

theorem sqDist_odd (q r : ℝ) (k : ℕ) : sqDist q r (2 * k + 1) = 0 := by
  rw [sqDist, if_neg (by omega)]

theorem sqDist_hasSum (t r : ℝ) (hr : 0 < r) (ht : t ^ 2 < 1) (x : ℝ) (hx : |x| ≤ 1) : HasSum (fun k => sqDist (1 - t ^ 2) r k * x ^ k) ((1 - t ^ 2) ^ r / (1 - x ^ 2 * t ^ 2) ^ r) := by
  have hx2 : x ^ 2 ≤ 1 := by rw [← sq_abs]; exact pow_le_one₀ (abs_nonneg x) hx
  have hz : |x ^ 2 * t ^ 2| < 1 := by
    rw [abs_of_nonneg (by positivity)]
    exact (mul_le_of_le_one_left (sq_nonneg t) hx2).trans_lt ht
  have h := (negBinomial_hasSum r hz).mul_left ((1 - t ^ 2) ^ r)
  rw [mul_one_div] at h
  exact hasSum_even (h.congr_fun fun k => sqDist_even t r hr x k) fun k => by rw [sqDist_odd, zero_mul]

/-- the code's array is the distribution below the cutoff, for even and odd cutoffs -/
theorem squeezed_value (s : ℝ) (cutoff : ℕ) (N : ℝ) (i : ℕ) (hi : i < cutoff) : squeezedStateDistribution s cutoff N i = sqDist (1 - Real.tanh s ^ 2) (1 / 2 * N) i := by
  unfold squeezedStateDistribution sqDist
  by_cases hc : cutoff % 2 = 0
  · rw [if_pos hc]
    by_cases h : i % 2 = 0 <;> simp [h, hi]
  · rw [if_neg hc]
    by_cases hl : i = cutoff - 1
    · have h2 : i % 2 = 0 := by omega
      have h3 : cutoff / 2 = i / 2 := by omega
      rw [if_pos hl, if_pos h2, h3]
    · rw [if_neg hl]
      have : i < cutoff - 1 := by omega
      by_cases h : i % 2 = 0 <;> simp [h, this]

/-- convolution without cutoff -/
noncomputable def conv (a b : ℕ → ℝ) (k : ℕ) : ℝ := ∑ i ∈ range (k + 1), a i * b (k - i)

theorem convolve_value {c : ℕ} {a b a' b' : ℕ → ℝ} (ha : ∀ i < c, a i = a' i) (hb : ∀ i < c, b i = b' i) (k : ℕ) (hk : k < c) : convolve c c a b k = conv a' b' k := by
  unfold convolve conv
  rw [← Finset.sum_filter]
  have : (range c).filter (fun i => i ≤ k ∧ k - i < c) = range (k + 1) := by
    ext i
    simp only [mem_filter, mem_range]
    omega
  rw [this]
  refine Finset.sum_congr rfl fun i hi => ?_
  have := mem_range.mp hi
  rw [ha i (by omega), hb (k - i) (by omega)]

/-- the total photon number of independent squeezed vacua -/
noncomputable def sqTotal (l : List ℝ) : ℕ → ℝ := l.foldl (fun ps v => conv ps (sqDist (1 - Real.tanh v ^ 2) (1 / 2))) fun i => if i = 0 then 1 else 0

theorem convolveSqueezed_value (l : List ℝ) (cutoff padding : ℕ) (hc : 0 < cutoff) (hp : 0 < padding) : ∃ f, convolveSqueezed l cutoff padding = .ok f ∧ ∀ k < padding * cutoff, f k = sqTotal l k := by
  have hne : padding * cutoff ≠ 0 := (Nat.mul_pos hp hc).ne'
  refine ⟨_, by unfold convolveSqueezed; rw [if_neg hne], ?_⟩
  unfold sqTotal
  generalize padding * cutoff = c
  have key : ∀ (l : List ℝ) (a a' : ℕ → ℝ), (∀ k < c, a k = a' k) → ∀ k < c, l.foldl (fun ps v => convolve c c ps (squeezedStateDistribution v c 1)) a k = l.foldl (fun ps v => conv ps (sqDist (1 - Real.tanh v ^ 2) (1 / 2))) a' k := by
    intro l
    induction l with
    | nil => intro a a' h k hk; exact h k hk
    | cons v l ih =>
      intro a a' h k hk
      rw [List.foldl_cons, List.foldl_cons]
      refine ih _ _ (fun j hj => convolve_value h (fun i hi => ?_) j hj) k hk
      rw [squeezed_value v c 1 i hi, mul_one]
  exact key l _ _ fun _ _ => rfl

theorem sqTotal_hasSum (l : List ℝ) (x : ℝ) (hx : |x| ≤ 1) : HasSum (fun k => sqTotal l k * x ^ k) (l.map fun v => (1 - Real.tanh v ^ 2) ^ (1 / 2 : ℝ) / (1 - x ^ 2 * Real.tanh v ^ 2) ^ (1 / 2 : ℝ)).prod := by
  unfold sqTotal
  have key : ∀ (l : List ℝ) (a : ℕ → ℝ) (S : ℝ), HasSum (fun k => a k * x ^ k) S → HasSum (fun k => l.foldl (fun ps v => conv ps (sqDist (1 - Real.tanh v ^ 2) (1 / 2))) a k * x ^ k)
      (S * (l.map fun v => (1 - Real.tanh v ^ 2) ^ (1 / 2 : ℝ) / (1 - x ^ 2 * Real.tanh v ^ 2) ^ (1 / 2 : ℝ)).prod) := by
    intro l
    induction l with
    | nil => intro a S h; simpa using h
    | cons v l ih =>
      intro a S h
      rw [List.foldl_cons, List.map_cons, List.prod_cons, ← mul_assoc]
      refine ih _ _ (hasSum_cauchy h (sqDist_hasSum (Real.tanh v) (1 / 2) (by norm_num) ?_ x hx))
      rw [sq_lt_one_iff_abs_lt_one]
      exact abs_lt.mpr ⟨Real.neg_one_lt_tanh v, Real.tanh_lt_one v⟩
  have h1 : HasSum (fun k : ℕ => (if k = 0 then (1 : ℝ) else 0) * x ^ k) 1 := by
    have := hasSum_single (f := fun k : ℕ => (if k = 0 then (1 : ℝ) else 0) * x ^ k) 0 fun k hk => by simp [hk]
    simpa using this
  simpa using key l _ 1 h1

theorem nbinomPmf_nonneg (k : ℕ) {q r : ℝ} (hr : 0 < r) (h0 : 0 ≤ q) (h1 : q ≤ 1) : 0 ≤ nbinomPmf k q r := by
  unfold nbinomPmf
  have hG := Real.Gamma_pos_of_pos hr
  have hG' := Real.Gamma_pos_of_pos (show 0 < r + k by positivity)
  have : 0 ≤ 1 - q := by linarith
  positivity

theorem sqDist_nonneg (k : ℕ) {q r : ℝ} (hr : 0 < r) (h0 : 0 ≤ q) (h1 : q ≤ 1) : 0 ≤ sqDist q r k := by
  unfold sqDist
  split_ifs
  · exact nbinomPmf_nonneg _ hr h0 h1
  · exact le_rfl

/-- the generating function of the number of surviving photons -/
theorem survive_hasSum (η x : ℝ) (m : ℕ) : HasSum (fun n => Spec.survive η m n * x ^ n) ((1 - η + η * x) ^ m) := by
  have h : (1 - η + η * x) ^ m = ∑ n ∈ range (m + 1), Spec.survive η m n * x ^ n := by
    rw [add_comm, add_pow]
    refine Finset.sum_congr rfl fun n _ => ?_
    rw [Spec.survive, mul_pow]; ring
  rw [h]
  refine hasSum_sum_of_ne_finset_zero fun n hn => ?_
  have : m < n := by simpa using hn
  rw [Spec.survive, Nat.choose_eq_zero_of_lt this]
  simp

theorem ordHyp_tsum (a b c z : ℝ) : ordinaryHypergeometric a b c z = ∑' j : ℕ, (ascPochhammer ℝ j).eval a * (ascPochhammer ℝ j).eval b / (ascPochhammer ℝ j).eval c / j.factorial * z ^ j := by
  rw [ordinaryHypergeometric_eq_tsum]
  refine tsum_congr fun j => ?_
  rw [smul_eq_mul]
  field_simp

theorem asc_add (r : ℝ) (a j : ℕ) : (ascPochhammer ℝ (a + j)).eval r = (ascPochhammer ℝ a).eval r * (ascPochhammer ℝ j).eval (r + a) := by
  rw [← ascPochhammer_mul, Polynomial.eval_mul, Polynomial.eval_comp]
  simp

theorem asc_pos (r : ℝ) (hr : 0 < r) (j : ℕ) : 0 < (ascPochhammer ℝ j).eval r := ascPochhammer_pos j r hr

theorem even_coef (a j : ℕ) : ((2 * a + 2 * j).choose (2 * a) : ℝ) / (a + j).factorial = (ascPochhammer ℝ j).eval (1 / 2 + a : ℝ) / (ascPochhammer ℝ j).eval (1 / 2 : ℝ) / (a.factorial * j.factorial) := by
  induction j with
  | zero => simp
  | succ j ih =>
    have hp := (asc_pos (1 / 2) (by norm_num) j).ne'
    have hc : ((2 * a + 2 * (j + 1)).choose (2 * a) : ℝ) * ((2 * j + 2) * (2 * j + 1)) = (2 * a + 2 * j + 2) * (2 * a + 2 * j + 1) * ((2 * a + 2 * j).choose (2 * a) : ℝ) := by
      have h1 := Nat.choose_mul_succ_eq (2 * a + 2 * j) (2 * a)
      have h2 := Nat.choose_mul_succ_eq (2 * a + 2 * j + 1) (2 * a)
      have e1 : 2 * a + 2 * j + 1 - 2 * a = 2 * j + 1 := by omega
      have e2 : 2 * a + 2 * j + 1 + 1 - 2 * a = 2 * j + 2 := by omega
      rw [e1] at h1
      rw [e2] at h2
      have h1' : ((2 * a + 2 * j).choose (2 * a) : ℝ) * (2 * a + 2 * j + 1) = ((2 * a + 2 * j + 1).choose (2 * a) : ℝ) * (2 * j + 1) := by exact_mod_cast h1
      have h2' : ((2 * a + 2 * j + 1).choose (2 * a) : ℝ) * (2 * a + 2 * j + 2) = ((2 * a + 2 * j + 1 + 1).choose (2 * a) : ℝ) * (2 * j + 2) := by exact_mod_cast h2
      rw [show 2 * a + 2 * (j + 1) = 2 * a + 2 * j + 1 + 1 by ring]
      linear_combination -(2 * j + 1 : ℝ) * h2' - (2 * a + 2 * j + 2 : ℝ) * h1'
    rw [ascPochhammer_succ_eval, ascPochhammer_succ_eval, ← add_assoc, Nat.factorial_succ, Nat.factorial_succ]
    have hj : (1 / 2 + j : ℝ) ≠ 0 := by positivity
    have hf1 : ((a + j).factorial : ℝ) ≠ 0 := by positivity
    have hf2 : (a.factorial : ℝ) ≠ 0 := by positivity
    have hf3 : (j.factorial : ℝ) ≠ 0 := by positivity
    have hc' : ((2 * a + 2 * (j + 1)).choose (2 * a) : ℝ) = (2 * a + 2 * j + 2) * (2 * a + 2 * j + 1) * ((2 * a + 2 * j).choose (2 * a) : ℝ) / ((2 * j + 2) * (2 * j + 1)) := by
      rw [eq_div_iff (by positivity)]; exact hc
    have ih' : ((2 * a + 2 * j).choose (2 * a) : ℝ) = (ascPochhammer ℝ j).eval (1 / 2 + a : ℝ) / (ascPochhammer ℝ j).eval (1 / 2 : ℝ) / (a.factorial * j.factorial) * (a + j).factorial := by
      rw [← ih]; field_simp
    rw [hc', ih']
    generalize (ascPochhammer ℝ j).eval (1 / 2 + a : ℝ) = P
    generalize (ascPochhammer ℝ j).eval (1 / 2 : ℝ) = R at hp ⊢
    push_cast
    field_simp
    ring

theorem odd_coef (a j : ℕ) : ((2 * a + 2 * j + 2).choose (2 * a + 1) : ℝ) / (a + j + 1).factorial = (2 * a + 2) * ((ascPochhammer ℝ j).eval (a + 3 / 2 : ℝ) / (ascPochhammer ℝ j).eval (3 / 2 : ℝ) / ((a + 1).factorial * j.factorial)) := by
  induction j with
  | zero =>
    have : (2 * a + 2).choose (2 * a + 1) = 2 * a + 2 := by
      rw [show 2 * a + 2 = (2 * a + 1) + 1 by ring, Nat.choose_succ_self_right]
    simp [this]
    ring
  | succ j ih =>
    have hp := (asc_pos (3 / 2) (by norm_num) j).ne'
    have hc : ((2 * a + 2 * (j + 1) + 2).choose (2 * a + 1) : ℝ) * ((2 * j + 3) * (2 * j + 2)) = (2 * a + 2 * j + 4) * (2 * a + 2 * j + 3) * ((2 * a + 2 * j + 2).choose (2 * a + 1) : ℝ) := by
      have h1 := Nat.choose_mul_succ_eq (2 * a + 2 * j + 2) (2 * a + 1)
      have h2 := Nat.choose_mul_succ_eq (2 * a + 2 * j + 2 + 1) (2 * a + 1)
      have e1 : 2 * a + 2 * j + 2 + 1 - (2 * a + 1) = 2 * j + 2 := by omega
      have e2 : 2 * a + 2 * j + 2 + 1 + 1 - (2 * a + 1) = 2 * j + 3 := by omega
      rw [e1] at h1
      rw [e2] at h2
      have h1' : ((2 * a + 2 * j + 2).choose (2 * a + 1) : ℝ) * (2 * a + 2 * j + 2 + 1) = ((2 * a + 2 * j + 2 + 1).choose (2 * a + 1) : ℝ) * (2 * j + 2) := by exact_mod_cast h1
      have h2' : ((2 * a + 2 * j + 2 + 1).choose (2 * a + 1) : ℝ) * (2 * a + 2 * j + 2 + 1 + 1) = ((2 * a + 2 * j + 2 + 1 + 1).choose (2 * a + 1) : ℝ) * (2 * j + 3) := by exact_mod_cast h2
      rw [show 2 * a + 2 * (j + 1) + 2 = 2 * a + 2 * j + 2 + 1 + 1 by ring]
      linear_combination -(2 * j + 2 : ℝ) * h2' - (2 * a + 2 * j + 4 : ℝ) * h1'
    rw [ascPochhammer_succ_eval, ascPochhammer_succ_eval, show a + (j + 1) + 1 = (a + j + 1) + 1 by ring, Nat.factorial_succ (a + j + 1), Nat.factorial_succ j]
    have hf1 : ((a + j + 1).factorial : ℝ) ≠ 0 := by positivity
    have hf2 : ((a + 1).factorial : ℝ) ≠ 0 := by positivity
    have hf3 : (j.factorial : ℝ) ≠ 0 := by positivity
    have hc' : ((2 * a + 2 * (j + 1) + 2).choose (2 * a + 1) : ℝ) = (2 * a + 2 * j + 4) * (2 * a + 2 * j + 3) * ((2 * a + 2 * j + 2).choose (2 * a + 1) : ℝ) / ((2 * j + 3) * (2 * j + 2)) := by
      rw [eq_div_iff (by positivity)]; exact hc
    have ih' : ((2 * a + 2 * j + 2).choose (2 * a + 1) : ℝ) = (2 * a + 2) * ((ascPochhammer ℝ j).eval (a + 3 / 2 : ℝ) / (ascPochhammer ℝ j).eval (3 / 2 : ℝ) / ((a + 1).factorial * j.factorial)) * (a + j + 1).factorial := by
      rw [← ih]; field_simp
    rw [hc', ih']
    generalize (ascPochhammer ℝ j).eval (a + 3 / 2 : ℝ) = P
    generalize (ascPochhammer ℝ j).eval (3 / 2 : ℝ) = R at hp ⊢
    push_cast
    generalize ((a + 1).factorial : ℝ) = F at hf2 ⊢
    generalize ((a + j + 1).factorial : ℝ) = F' at hf1 ⊢
    have hj : (3 / 2 + j : ℝ) ≠ 0 := by positivity
    field_simp
    ring

theorem binom_coef (r : ℝ) (hr : 0 < r) (a : ℕ) (x y : ℝ) (hx : x = r + a - 1) (hy : y = a) : binom x y = (ascPochhammer ℝ a).eval r / a.factorial := by
  subst hx hy
  unfold binom
  rw [sub_add_cancel, gamma_asc r hr, Real.Gamma_nat_eq_factorial, show r + (a : ℝ) - 1 - a + 1 = r by ring, mul_div_mul_right _ _ (Real.Gamma_pos_of_pos hr).ne']

theorem one_sub_tanh_sq (s : ℝ) : 1 - Real.tanh s ^ 2 = (1 / Real.cosh s) ^ 2 := by
  have h := Real.cosh_sq s
  have hc := (Real.cosh_pos s).ne'
  rw [Real.tanh_eq_sinh_div_cosh]
  field_simp
  linarith

theorem q_rpow (s : ℝ) (k : ℕ) : (1 - Real.tanh s ^ 2) ^ (k / 2 : ℝ) = (1 / Real.cosh s) ^ k := by
  have hc : 0 ≤ 1 / Real.cosh s := by have := Real.cosh_pos s; positivity
  rw [one_sub_tanh_sq, ← Real.rpow_natCast, ← Real.rpow_mul hc, ← Real.rpow_natCast]
  congr 1
  push_cast
  ring

theorem even_term (s η : ℝ) (k : ℕ) (hk : 0 < k) (a j : ℕ) : Spec.survive η (2 * a + 2 * j) (2 * a) * sqDist (1 - Real.tanh s ^ 2) (k / 2) (2 * a + 2 * j) =
    (ascPochhammer ℝ a).eval (k / 2 : ℝ) / a.factorial * (1 / Real.cosh s) ^ k * (η * Real.tanh s) ^ (2 * a) *
      ((ascPochhammer ℝ j).eval (1 / 2 + a : ℝ) * (ascPochhammer ℝ j).eval (k / 2 + a : ℝ) / (ascPochhammer ℝ j).eval (1 / 2 : ℝ) / j.factorial * ((1 - η) ^ 2 * Real.tanh s ^ 2) ^ j) := by
  have hr : (0 : ℝ) < k / 2 := by positivity
  have hc := even_coef a j
  have hp := (asc_pos (1 / 2) (by norm_num) j).ne'
  have hf : ((a + j).factorial : ℝ) ≠ 0 := by positivity
  have hc' : ((2 * a + 2 * j).choose (2 * a) : ℝ) = (ascPochhammer ℝ j).eval (1 / 2 + a : ℝ) / (ascPochhammer ℝ j).eval (1 / 2 : ℝ) / (a.factorial * j.factorial) * (a + j).factorial := by
    rw [← hc]; field_simp
  rw [Spec.survive, sqDist, if_pos (by omega), show (2 * a + 2 * j) / 2 = a + j by omega, nbinomPmf, gamma_coef _ hr, sub_sub_cancel, asc_add, q_rpow, show 2 * a + 2 * j - 2 * a = 2 * j by omega, hc']
  rw [mul_pow η, mul_pow ((1 - η) ^ 2), ← pow_mul, ← pow_mul, ← pow_mul, mul_add 2 a j, pow_add]
  field_simp

theorem odd_alg (A P R F F' J e d u c Q S t v w : ℝ) (hR : R ≠ 0) (hF : F ≠ 0) (hF' : F' ≠ 0) (hJ : J ≠ 0) :
    (A * (P / R / (F' * J)) * F) * e * (d * u) * (Q * S / F * c * (v * (w * t))) = A * u * (Q / F') * c * t * (e * v) * (P * S / R / J * (d * w)) := by
  have h := mul_inv_cancel₀ hF
  simp only [div_eq_mul_inv, mul_inv]
  linear_combination (A * P * R⁻¹ * F'⁻¹ * J⁻¹ * e * d * u * Q * S * c * v * w * t) * h

theorem odd_term (s η : ℝ) (k : ℕ) (hk : 0 < k) (a j : ℕ) : Spec.survive η (2 * a + 2 * j + 2) (2 * a + 1) * sqDist (1 - Real.tanh s ^ 2) (k / 2) (2 * a + 2 * j + 2) =
    (2 * a + 2) * (1 - η) * ((ascPochhammer ℝ (a + 1)).eval (k / 2 : ℝ) / (a + 1).factorial) * (1 / Real.cosh s) ^ k * Real.tanh s * (η * Real.tanh s) ^ (2 * a + 1) *
      ((ascPochhammer ℝ j).eval (a + 3 / 2 : ℝ) * (ascPochhammer ℝ j).eval (k / 2 + a + 1 : ℝ) / (ascPochhammer ℝ j).eval (3 / 2 : ℝ) / j.factorial * ((1 - η) ^ 2 * Real.tanh s ^ 2) ^ j) := by
  have hr : (0 : ℝ) < k / 2 := by positivity
  have hc := odd_coef a j
  have hp := (asc_pos (3 / 2) (by norm_num) j).ne'
  have hf : ((a + j + 1).factorial : ℝ) ≠ 0 := by positivity
  have hf2 : ((a + 1).factorial : ℝ) ≠ 0 := by positivity
  have hc' : ((2 * a + 2 * j + 2).choose (2 * a + 1) : ℝ) = (2 * a + 2) * ((ascPochhammer ℝ j).eval (a + 3 / 2 : ℝ) / (ascPochhammer ℝ j).eval (3 / 2 : ℝ) / ((a + 1).factorial * j.factorial)) * (a + j + 1).factorial := by
    rw [← hc]; field_simp
  rw [Spec.survive, sqDist, if_pos (by omega), show (2 * a + 2 * j + 2) / 2 = (a + 1) + j by omega, nbinomPmf, gamma_coef _ hr, sub_sub_cancel, asc_add, q_rpow, show 2 * a + 2 * j + 2 - (2 * a + 1) = 2 * j + 1 by omega, hc',
    show a + 1 + j = a + j + 1 by ring]
  rw [mul_pow η, mul_pow ((1 - η) ^ 2), ← pow_mul, ← pow_mul, ← pow_mul, show 2 * (a + j + 1) = 2 * a + 1 + (2 * j + 1) by ring, pow_add (Real.tanh s), pow_succ (Real.tanh s) (2 * j), pow_succ (1 - η) (2 * j), Nat.cast_succ, ← add_assoc]
  exact odd_alg _ _ _ _ _ _ _ _ _ _ _ _ _ _ _ hp hf hf2 (by positivity)

/-- the closed form of the code is the distribution of the photons that survive -/
theorem total_survive (n k : ℕ) (hk : 0 < k) (s η pref : ℝ) : totalPhotonNumberDistribution n k s η pref = pref ^ n * ∑' m, Spec.survive η m n * sqDist (1 - Real.tanh s ^ 2) (k / 2) m := by
  have hr : (0 : ℝ) < k / 2 := by positivity
  unfold totalPhotonNumberDistribution
  by_cases hn : n % 2 = 0
  · obtain ⟨a, rfl⟩ : ∃ a, n = 2 * a := ⟨n / 2, by omega⟩
    rw [if_pos hn]
    have hinj : Function.Injective fun j : ℕ => 2 * a + 2 * j := fun i j h => by simpa using h
    have hsupp : Function.support (fun m => Spec.survive η m (2 * a) * sqDist (1 - Real.tanh s ^ 2) (k / 2) m) ⊆ Set.range fun j : ℕ => 2 * a + 2 * j := by
      intro m hm
      by_contra h
      apply hm
      by_cases h2 : m < 2 * a
      · simp only [Spec.survive, Nat.choose_eq_zero_of_lt h2, Nat.cast_zero, zero_mul]
      · have h3 : m % 2 ≠ 0 := fun h3 => h ⟨(m - 2 * a) / 2, by dsimp only; omega⟩
        simp only [sqDist, if_neg h3, mul_zero]
    rw [← hinj.tsum_eq hsupp]
    rw [tsum_congr fun j => even_term s η k hk a j, tsum_mul_left, ordHyp_tsum, binom_coef (k / 2 : ℝ) hr a _ _ (by push_cast; ring) (by push_cast; ring)]
    have e : (1 / 2 + ((2 * a : ℕ) : ℝ) / 2) = 1 / 2 + a := by push_cast; ring
    have e' : ((k : ℝ) / 2 + ((2 * a : ℕ) : ℝ) / 2) = k / 2 + a := by push_cast; ring
    rw [e, e', show pref * η * Real.tanh s = pref * (η * Real.tanh s) by ring, mul_pow pref]
    ring
  · obtain ⟨a, rfl⟩ : ∃ a, n = 2 * a + 1 := ⟨n / 2, by omega⟩
    rw [if_neg hn]
    have hinj : Function.Injective fun j : ℕ => 2 * a + 2 * j + 2 := fun i j h => by simpa using h
    have hsupp : Function.support (fun m => Spec.survive η m (2 * a + 1) * sqDist (1 - Real.tanh s ^ 2) (k / 2) m) ⊆ Set.range fun j : ℕ => 2 * a + 2 * j + 2 := by
      intro m hm
      by_contra h
      apply hm
      by_cases h2 : m < 2 * a + 1
      · simp only [Spec.survive, Nat.choose_eq_zero_of_lt h2, Nat.cast_zero, zero_mul]
      · have h3 : m % 2 ≠ 0 := fun h3 => h ⟨(m - 2 * a - 2) / 2, by dsimp only; omega⟩
        simp only [sqDist, if_neg h3, mul_zero]
    rw [← hinj.tsum_eq hsupp]
    rw [tsum_congr fun j => odd_term s η k hk a j, tsum_mul_left, ordHyp_tsum, binom_coef (k / 2 : ℝ) hr (a + 1) _ _ (by push_cast; ring) (by push_cast; ring)]
    have e : ((2 + ((2 * a + 1 : ℕ) : ℝ)) / 2) = a + 3 / 2 := by push_cast; ring
    have e' : ((1 + (k : ℝ) + ((2 * a + 1 : ℕ) : ℝ)) / 2) = k / 2 + a + 1 := by push_cast; ring
    rw [e, e', show pref * η * Real.tanh s = pref * (η * Real.tanh s) by ring, mul_pow pref]
    push_cast
    ring

theorem survive_le_one {η : ℝ} (h0 : 0 ≤ η) (h1 : η ≤ 1) (m n : ℕ) : 0 ≤ Spec.survive η m n ∧ Spec.survive η m n ≤ 1 := by
  have hnn : ∀ n, 0 ≤ Spec.survive η m n := fun n => by
    unfold Spec.survive
    have : 0 ≤ 1 - η := by linarith
    positivity
  refine ⟨hnn n, ?_⟩
  have h := survive_hasSum η 1 m
  simp only [one_pow, mul_one, sub_add_cancel] at h
  exact le_hasSum h n fun j _ => hnn j

/-- the generating function of the photon number after loss -/
theorem lossySq_hasSum (t r : ℝ) (hr : 0 < r) (ht : t ^ 2 < 1) {η x : ℝ} (h0 : 0 ≤ η) (h1 : η ≤ 1) (hx0 : 0 ≤ x) (hx1 : x ≤ 1) :
    (∀ n, Summable fun m => Spec.survive η m n * sqDist (1 - t ^ 2) r m) ∧
    HasSum (fun n => (∑' m, Spec.survive η m n * sqDist (1 - t ^ 2) r m) * x ^ n) ((1 - t ^ 2) ^ r / (1 - (1 - η + η * x) ^ 2 * t ^ 2) ^ r) := by
  have hq : ∀ m, 0 ≤ sqDist (1 - t ^ 2) r m := fun m => sqDist_nonneg m hr (by linarith) (by nlinarith)
  have hsum : Summable fun m => sqDist (1 - t ^ 2) r m := by
    have := (sqDist_hasSum t r hr ht 1 (by simp)).summable
    simpa using this
  have hs : ∀ n, Summable fun m => Spec.survive η m n * sqDist (1 - t ^ 2) r m := fun n =>
    Summable.of_nonneg_of_le (fun m => mul_nonneg (survive_le_one h0 h1 m n).1 (hq m)) (fun m => mul_le_of_le_one_left (hq m) (survive_le_one h0 h1 m n).2) hsum
  refine ⟨hs, ?_⟩
  have hy : |1 - η + η * x| ≤ 1 := abs_le.mpr ⟨by nlinarith, by nlinarith⟩
  have hg := sqDist_hasSum t r hr ht (1 - η + η * x) hy
  have hf : ∀ m, HasSum (fun n => sqDist (1 - t ^ 2) r m * (Spec.survive η m n * x ^ n)) (sqDist (1 - t ^ 2) r m * (1 - η + η * x) ^ m) := fun m => (survive_hasSum η x m).mul_left _
  have hnn : ∀ m n, 0 ≤ sqDist (1 - t ^ 2) r m * (Spec.survive η m n * x ^ n) := fun m n => mul_nonneg (hq m) (mul_nonneg (survive_le_one h0 h1 m n).1 (pow_nonneg hx0 n))
  have hsp : Summable fun y : ℕ × ℕ => sqDist (1 - t ^ 2) r y.1 * (Spec.survive η y.1 y.2 * x ^ y.2) := by
    refine (summable_prod_of_nonneg (f := fun y : ℕ × ℕ => sqDist (1 - t ^ 2) r y.1 * (Spec.survive η y.1 y.2 * x ^ y.2)) fun y => hnn _ _).mpr ⟨fun m => (hf m).summable, ?_⟩
    exact hg.summable.congr fun m => ((hf m).tsum_eq).symm
  have hall := hsp.hasSum
  have e1 := hall.prod_fiberwise hf
  have e2 := e1.unique hg
  rw [e2] at hall
  have hsw := (Equiv.prodComm ℕ ℕ).hasSum_iff.mpr hall
  refine hsw.prod_fiberwise fun n => ?_
  have := (hs n).hasSum.mul_right (x ^ n)
  refine this.congr_fun fun m => ?_
  simp only [Function.comp_apply, Equiv.prodComm_apply, Prod.fst_swap, Prod.snd_swap]
  ring

end Verif.Lemmas.Tot
