/-
The mean number of clicks of the Gaussian state of `x A` as a function of `x`.
-/
import Verif.Props.Adjacency

namespace Verif.Lemmas.ClickScale
open Verif.Model Verif.Model.Symp Verif.Model.Conv Verif.Model.Means Verif.Model.Adj Verif.Spec Verif.Lemmas Verif.Lemmas.Symp Verif.Lemmas.Graph Verif.Props Matrix
open scoped ComplexOrder

/-- one term of the double sum over singular values -/
noncomputable def pairTerm (S R s t x : ℝ) : ℝ := (S - x ^ 2 * (s * t) * R) / ((1 - (x * s) ^ 2) * (1 - (x * t) ^ 2))

theorem pair_den (s t x : ℝ) (hx : 0 ≤ x) (hs : 0 ≤ s) (ht : 0 ≤ t) (hs1 : x * s < 1) (ht1 : x * t < 1) :
    0 < (1 - (x * s) ^ 2) * (1 - (x * t) ^ 2) := by
  have h1 : 0 ≤ x * s := mul_nonneg hx hs
  have h2 : 0 ≤ x * t := mul_nonneg hx ht
  exact mul_pos (by nlinarith) (by nlinarith)

theorem pair_cross (S R X Y a b : ℝ) (hR1 : -S ≤ R) (hR2 : R ≤ S) (ha : 0 ≤ a) (hab : a ≤ b) (hY : 0 < Y) (E : Y ≤ X) (G : (1 - a) * Y ≤ (1 - b) * X) :
    (S - a * R) * Y ≤ (S - b * R) * X ∧ (0 < S → Y < X → (1 - a) * Y < (1 - b) * X → (S - a * R) * Y < (S - b * R) * X) := by
  rcases le_or_gt 0 R with hr | hr
  · have a1 : (S - a * R) * Y = (S - R) * Y + R * ((1 - a) * Y) := by ring
    have a2 : (S - b * R) * X = (S - R) * X + R * ((1 - b) * X) := by ring
    rw [a1, a2]
    refine ⟨add_le_add (mul_le_mul_of_nonneg_left E (by linarith)) (mul_le_mul_of_nonneg_left G hr), fun hS Es Gs => ?_⟩
    rcases hr.eq_or_lt with h0 | h0
    · have := mul_lt_mul_of_pos_left Es (show 0 < S - R by linarith)
      rw [← h0] at this ⊢
      linarith
    · have := mul_lt_mul_of_pos_left Gs h0
      have := mul_le_mul_of_nonneg_left E (show 0 ≤ S - R by linarith)
      linarith
  · have b1 : S - a * R ≤ S - b * R := by nlinarith
    have b3 : 0 < S - a * R := by nlinarith
    refine ⟨mul_le_mul b1 E hY.le (by linarith), fun _ Es _ => ?_⟩
    calc (S - a * R) * Y < (S - a * R) * X := mul_lt_mul_of_pos_left Es b3
      _ ≤ _ := mul_le_mul_of_nonneg_right b1 (by linarith)

theorem pair_mono (S R s t x y : ℝ) (hR : |R| ≤ S) (hs : 0 ≤ s) (ht : 0 ≤ t) (hx : 0 ≤ x) (hxy : x < y) (hs1 : y * s < 1) (ht1 : y * t < 1) :
    pairTerm S R s t x ≤ pairTerm S R s t y ∧ (0 < S → 0 < s ∨ 0 < t → pairTerm S R s t x < pairTerm S R s t y) := by
  have hy : 0 < y := lt_of_le_of_lt hx hxy
  have hxs : x * s ≤ y * s := mul_le_mul_of_nonneg_right hxy.le hs
  have hxt : x * t ≤ y * t := mul_le_mul_of_nonneg_right hxy.le ht
  have dx := pair_den s t x hx hs ht (by linarith) (by linarith)
  have dy := pair_den s t y hy.le hs ht hs1 ht1
  obtain ⟨hR1, hR2⟩ := abs_le.mp hR
  set u := x ^ 2 with hu
  set w := y ^ 2 with hw
  have huw : u < w := by rw [hu, hw]; nlinarith
  have hu0 : 0 ≤ u := sq_nonneg x
  have e1 : (1 - (x * s) ^ 2) * (1 - (x * t) ^ 2) = (1 - u * s ^ 2) * (1 - u * t ^ 2) := by rw [hu]; ring
  have e2 : (1 - (y * s) ^ 2) * (1 - (y * t) ^ 2) = (1 - w * s ^ 2) * (1 - w * t ^ 2) := by rw [hw]; ring
  rw [e1] at dx
  rw [e2] at dy
  have hst : 0 ≤ s * t := mul_nonneg hs ht
  have p1 : 0 < 1 - u * (s * t) := by
    have h1 : (x * s) * (x * t) < 1 := by
      have := mul_nonneg hx hs; have := mul_nonneg hx ht; nlinarith
    have : u * (s * t) = (x * s) * (x * t) := by rw [hu]; ring
    linarith
  have q1 : 0 < 1 - w * (s * t) := by
    have h1 : (y * s) * (y * t) < 1 := by
      have := mul_nonneg hy.le hs; have := mul_nonneg hy.le ht; nlinarith
    have : w * (s * t) = (y * s) * (y * t) := by rw [hw]; ring
    linarith
  have hws : 0 < 1 - w * s ^ 2 := by
    have h0 := mul_nonneg hy.le hs
    have : w * s ^ 2 = (y * s) ^ 2 := by rw [hw]; ring
    nlinarith
  have hwt : 0 < 1 - w * t ^ 2 := by
    have h0 := mul_nonneg hy.le ht
    have : w * t ^ 2 = (y * t) ^ 2 := by rw [hw]; ring
    nlinarith
  have hus : 1 - w * s ^ 2 ≤ 1 - u * s ^ 2 := by nlinarith [sq_nonneg s]
  have hut : 1 - w * t ^ 2 ≤ 1 - u * t ^ 2 := by nlinarith [sq_nonneg t]
  -- the two monotone functions, cross multiplied
  have E : (1 - w * s ^ 2) * (1 - w * t ^ 2) ≤ (1 - u * s ^ 2) * (1 - u * t ^ 2) := mul_le_mul hus hut hwt.le (by linarith)
  have G : (1 - u * (s * t)) * ((1 - w * s ^ 2) * (1 - w * t ^ 2)) ≤ (1 - w * (s * t)) * ((1 - u * s ^ 2) * (1 - u * t ^ 2)) := by
    have : (1 - w * (s * t)) * ((1 - u * s ^ 2) * (1 - u * t ^ 2)) - (1 - u * (s * t)) * ((1 - w * s ^ 2) * (1 - w * t ^ 2)) =
        (w - u) * ((1 - u * (s * t)) * (1 - w * (s * t)) * (s * t) + (s - t) ^ 2) := by ring
    have h2 : 0 ≤ (w - u) * ((1 - u * (s * t)) * (1 - w * (s * t)) * (s * t) + (s - t) ^ 2) :=
      mul_nonneg (by linarith) (add_nonneg (mul_nonneg (mul_nonneg p1.le q1.le) hst) (sq_nonneg _))
    linarith
  have Es : (0 < s ∨ 0 < t) → (1 - w * s ^ 2) * (1 - w * t ^ 2) < (1 - u * s ^ 2) * (1 - u * t ^ 2) := by
    rintro (h | h)
    · exact mul_lt_mul (by nlinarith [pow_pos h 2]) hut hwt (by linarith)
    · exact mul_lt_mul' hus (by nlinarith [pow_pos h 2]) hwt.le (by linarith)
  have Gs : (0 < s ∨ 0 < t) → (1 - u * (s * t)) * ((1 - w * s ^ 2) * (1 - w * t ^ 2)) < (1 - w * (s * t)) * ((1 - u * s ^ 2) * (1 - u * t ^ 2)) := by
    intro h
    have e : (1 - w * (s * t)) * ((1 - u * s ^ 2) * (1 - u * t ^ 2)) - (1 - u * (s * t)) * ((1 - w * s ^ 2) * (1 - w * t ^ 2)) =
        (w - u) * ((1 - u * (s * t)) * (1 - w * (s * t)) * (s * t) + (s - t) ^ 2) := by ring
    have h2 : 0 < (1 - u * (s * t)) * (1 - w * (s * t)) * (s * t) + (s - t) ^ 2 := by
      rcases hst.eq_or_lt with h0 | h0
      · rw [← h0]
        have h3 : s ≠ t := by
          rintro rfl
          rcases h with h | h <;> nlinarith
        have := sq_pos_of_ne_zero (sub_ne_zero.mpr h3)
        linarith
      · have := mul_pos (mul_pos p1 q1) h0
        nlinarith [sq_nonneg (s - t)]
    have := mul_pos (show 0 < w - u by linarith) h2
    linarith
  unfold pairTerm
  rw [e1, e2, ← hu, ← hw, div_le_div_iff₀ dx dy, div_lt_div_iff₀ dx dy]
  have hc := pair_cross S R ((1 - u * s ^ 2) * (1 - u * t ^ 2)) ((1 - w * s ^ 2) * (1 - w * t ^ 2)) (u * (s * t)) (w * (s * t)) hR1 hR2 (mul_nonneg hu0 hst)
    (mul_le_mul_of_nonneg_right huw.le hst) dy E G
  exact ⟨hc.1, fun hS h => hc.2 hS (Es h) (Gs h)⟩

/-- vacuum probability of a mode to the power `-2`, in terms of the row of `u` and the column of `v` -/
noncomputable def vacF (n : ℕ) (u v : Fin n → ℂ) (d : Fin n → ℝ) (x : ℝ) : ℝ :=
  ∑ k, ∑ l, pairTerm ((‖v k‖ ^ 2 * ‖u l‖ ^ 2 + ‖v l‖ ^ 2 * ‖u k‖ ^ 2) / 2) ((u k * v k) * (starRingEnd ℂ) (u l * v l)).re (d k) (d l) x

theorem pair_bound (a b c e : ℂ) : |((a * b) * (starRingEnd ℂ) (c * e)).re| ≤ (‖b‖ ^ 2 * ‖c‖ ^ 2 + ‖e‖ ^ 2 * ‖a‖ ^ 2) / 2 := by
  refine (Complex.abs_re_le_norm _).trans ?_
  rw [norm_mul, Complex.norm_conj, norm_mul, norm_mul]
  nlinarith [sq_nonneg (‖b‖ * ‖c‖ - ‖e‖ * ‖a‖)]

theorem vacF_mono (n : ℕ) (u v : Fin n → ℂ) (d : Fin n → ℝ) (hd : ∀ k, 0 ≤ d k) (x y : ℝ) (hx : 0 ≤ x) (hxy : x < y) (hy : ∀ k, y * d k < 1) :
    vacF n u v d x ≤ vacF n u v d y ∧ ((∃ k l, 0 < d k ∧ v k ≠ 0 ∧ u l ≠ 0) → vacF n u v d x < vacF n u v d y) := by
  have h : ∀ k l, _ := fun k l => pair_mono _ _ (d k) (d l) x y (pair_bound (u k) (v k) (u l) (v l)) (hd k) (hd l) hx hxy (hy k) (hy l)
  refine ⟨Finset.sum_le_sum fun k _ => Finset.sum_le_sum fun l _ => (h k l).1, ?_⟩
  rintro ⟨k, l, hk, hv, hu⟩
  refine Finset.sum_lt_sum (fun k _ => Finset.sum_le_sum fun l _ => (h k l).1) ⟨k, Finset.mem_univ _,
    Finset.sum_lt_sum (fun l _ => (h k l).1) ⟨l, Finset.mem_univ _, (h k l).2 ?_ (Or.inl hk)⟩⟩
  have h1 : 0 < ‖v k‖ := norm_pos_iff.mpr hv
  have h2 : 0 < ‖u l‖ := norm_pos_iff.mpr hu
  positivity

theorem vacF_zero (n : ℕ) (u v : Fin n → ℂ) (d : Fin n → ℝ) (hu : ∑ k, ‖u k‖ ^ 2 = 1) (hv : ∑ k, ‖v k‖ ^ 2 = 1) : vacF n u v d 0 = 1 := by
  have e : ∑ k, ∑ l, ‖v k‖ ^ 2 * ‖u l‖ ^ 2 = 1 := by
    rw [← Finset.sum_mul_sum, hu, hv, mul_one]
  have e' : ∑ k, ∑ l, ‖v l‖ ^ 2 * ‖u k‖ ^ 2 = 1 := by rw [Finset.sum_comm, e]
  unfold vacF pairTerm
  simp only [ne_eq, OfNat.ofNat_ne_zero, not_false_eq_true, zero_pow, zero_mul, sub_zero, mul_one, div_one]
  simp only [← Finset.sum_div, Finset.sum_add_distrib, e, e']
  norm_num

theorem vacF_continuous (n : ℕ) (u v : Fin n → ℂ) (d : Fin n → ℝ) (hd : ∀ k, 0 ≤ d k) (b : ℝ) (hb : ∀ k, b * d k < 1) :
    ContinuousOn (vacF n u v d) (Set.Icc 0 b) := by
  unfold vacF
  refine continuousOn_finsetSum _ fun k _ => continuousOn_finsetSum _ fun l _ => ?_
  unfold pairTerm
  refine ContinuousOn.div (by fun_prop) (by fun_prop) ?_
  intro x hx
  exact (pair_den (d k) (d l) x hx.1 (hd k) (hd l) (lt_of_le_of_lt (mul_le_mul_of_nonneg_right hx.2 (hd k)) (hb k))
    (lt_of_le_of_lt (mul_le_mul_of_nonneg_right hx.2 (hd l)) (hb l))).ne'

end Verif.Lemmas.ClickScale
