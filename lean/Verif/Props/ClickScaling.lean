/-
C76: scaling a graph to a mean number of clicks.
-/
import Verif.Lemmas.ClickScale

namespace Verif.Props
open Verif.Model Verif.Model.Symp Verif.Model.Conv Verif.Model.Means Verif.Model.Adj Verif.Spec Verif.Lemmas Verif.Lemmas.Symp Verif.Lemmas.Graph
  Verif.Lemmas.ClickScale Matrix
open scoped ComplexOrder

section
variable {n : ℕ} (u v : Matrix (Fin n) (Fin n) ℂ) (d : Fin n → ℝ) (x : ℝ)

theorem svd_P (hu : u ∈ unitaryGroup (Fin n) ℂ) (hv : v ∈ unitaryGroup (Fin n) ℂ) (hw : ∀ i, 0 < 1 - (x * d i) ^ 2) :
    (1 - ((x : ℂ) • (u * diagonal (fun i => (d i : ℂ)) * v))ᴴ * ((x : ℂ) • (u * diagonal (fun i => (d i : ℂ)) * v)))⁻¹ =
      vᴴ * diagonal (fun i => ((1 / (1 - (x * d i) ^ 2) : ℝ) : ℂ)) * v := by
  have hv1 : v * vᴴ = 1 := (Matrix.mem_unitaryGroup_iff).mp hv
  have hv2 : vᴴ * v = 1 := (Matrix.mem_unitaryGroup_iff').mp hv
  rw [svd_gram n u v hu hv d x]
  apply inv_eq_right_inv
  calc vᴴ * diagonal (fun i => ((1 - (x * d i) ^ 2 : ℝ) : ℂ)) * v * (vᴴ * diagonal (fun i => ((1 / (1 - (x * d i) ^ 2) : ℝ) : ℂ)) * v)
      = vᴴ * (diagonal (fun i => ((1 - (x * d i) ^ 2 : ℝ) : ℂ)) * (v * vᴴ) * diagonal (fun i => ((1 / (1 - (x * d i) ^ 2) : ℝ) : ℂ))) * v := by
        simp only [Matrix.mul_assoc]
    _ = 1 := by
      rw [hv1, Matrix.mul_one, diagonal_mul_diagonal]
      have : (fun i => ((1 - (x * d i) ^ 2 : ℝ) : ℂ) * ((1 / (1 - (x * d i) ^ 2) : ℝ) : ℂ)) = fun _ => 1 := by
        ext i
        rw [← Complex.ofReal_mul, mul_one_div_cancel (hw i).ne', Complex.ofReal_one]
      rw [this, diagonal_one, Matrix.mul_one, hv2]

theorem svd_MP (hv : v ∈ unitaryGroup (Fin n) ℂ) (D : Fin n → ℝ) :
    ((x : ℂ) • (u * diagonal (fun i => (d i : ℂ)) * v)) * (vᴴ * diagonal (fun i => (D i : ℂ)) * v) = u * diagonal (fun i => ((x * d i * D i : ℝ) : ℂ)) * v := by
  have hv1 : v * vᴴ = 1 := (Matrix.mem_unitaryGroup_iff).mp hv
  rw [smul_mul_assoc]
  calc (x : ℂ) • (u * diagonal (fun i => (d i : ℂ)) * v * (vᴴ * diagonal (fun i => (D i : ℂ)) * v))
      = (x : ℂ) • (u * (diagonal (fun i => (d i : ℂ)) * (v * vᴴ) * diagonal (fun i => (D i : ℂ))) * v) := by simp only [Matrix.mul_assoc]
    _ = u * diagonal (fun i => ((x * d i * D i : ℝ) : ℂ)) * v := by
      rw [hv1, Matrix.mul_one, diagonal_mul_diagonal, ← smul_mul_assoc, ← mul_smul_comm, ← diagonal_smul]
      congr 3
      ext i; simp [mul_assoc]

theorem svd_MPM (hu : u ∈ unitaryGroup (Fin n) ℂ) (hv : v ∈ unitaryGroup (Fin n) ℂ) (hw : ∀ i, 0 < 1 - (x * d i) ^ 2) :
    1 + ((x : ℂ) • (u * diagonal (fun i => (d i : ℂ)) * v)) * (vᴴ * diagonal (fun i => ((1 / (1 - (x * d i) ^ 2) : ℝ) : ℂ)) * v) *
      ((x : ℂ) • (u * diagonal (fun i => (d i : ℂ)) * v))ᴴ = u * diagonal (fun i => ((1 / (1 - (x * d i) ^ 2) : ℝ) : ℂ)) * uᴴ := by
  have hv1 : v * vᴴ = 1 := (Matrix.mem_unitaryGroup_iff).mp hv
  have hu1 : u * uᴴ = 1 := (Matrix.mem_unitaryGroup_iff).mp hu
  have hd : (diagonal fun i => (d i : ℂ))ᴴ = diagonal fun i => (d i : ℂ) := by
    rw [diagonal_conjTranspose]; congr 1; ext i; simp
  rw [svd_MP u v d x hv, conjTranspose_smul, conjTranspose_mul, conjTranspose_mul, hd, mul_smul_comm]
  have : u * diagonal (fun i => ((x * d i * (1 / (1 - (x * d i) ^ 2)) : ℝ) : ℂ)) * v * (vᴴ * (diagonal (fun i => (d i : ℂ)) * uᴴ)) =
      u * (diagonal (fun i => ((x * d i * (1 / (1 - (x * d i) ^ 2)) : ℝ) : ℂ)) * (v * vᴴ) * diagonal (fun i => (d i : ℂ))) * uᴴ := by simp only [Matrix.mul_assoc]
  rw [this, hv1, Matrix.mul_one, diagonal_mul_diagonal, ← smul_mul_assoc, ← mul_smul_comm, ← diagonal_smul]
  nth_rw 1 [← hu1]
  nth_rw 1 [← Matrix.mul_one u]
  rw [← Matrix.add_mul, ← Matrix.mul_add, ← diagonal_one, diagonal_add]
  congr 3
  ext i
  have h := (hw i).ne'
  have h2 : (1 : ℝ) + x * (x * d i * (1 / (1 - (x * d i) ^ 2)) * d i) = 1 / (1 - (x * d i) ^ 2) := by
    rw [eq_div_iff h]
    have : x * (x * d i * (1 / (1 - (x * d i) ^ 2)) * d i) * (1 - (x * d i) ^ 2) = x * (x * d i) * d i := by
      generalize 1 - (x * d i) ^ 2 = w at h
      field_simp
    linear_combination this
  rw [← h2]
  simp

theorem diag_entry (a b : Matrix (Fin n) (Fin n) ℂ) (D : Fin n → ℝ) (j : Fin n) :
    (a * diagonal (fun i => (D i : ℂ)) * b) j j = ∑ k, (D k : ℂ) * (a j k * b k j) := by
  rw [Matrix.mul_apply]
  exact Finset.sum_congr rfl fun k _ => by rw [mul_diagonal]; ring

/-- the double sum -/
theorem vacF_expand (hw : ∀ i, 0 < 1 - (x * d i) ^ 2) (a b : Fin n → ℂ) :
    ((∑ k, ((1 / (1 - (x * d k) ^ 2) : ℝ) : ℂ) * ((starRingEnd ℂ) (b k) * b k)) * (∑ k, ((1 / (1 - (x * d k) ^ 2) : ℝ) : ℂ) * (a k * (starRingEnd ℂ) (a k))) -
      (∑ k, ((x * d k * (1 / (1 - (x * d k) ^ 2)) : ℝ) : ℂ) * (a k * b k)) *
        (starRingEnd ℂ) (∑ k, ((x * d k * (1 / (1 - (x * d k) ^ 2)) : ℝ) : ℂ) * (a k * b k))).re = vacF n a b d x := by
  set D : Fin n → ℝ := fun k => 1 / (1 - (x * d k) ^ 2) with hD
  have e1 : ∀ k, (starRingEnd ℂ) (b k) * b k = ((‖b k‖ ^ 2 : ℝ) : ℂ) := fun k => by
    rw [mul_comm, Complex.mul_conj, Complex.normSq_eq_norm_sq]
  have e2 : ∀ k, a k * (starRingEnd ℂ) (a k) = ((‖a k‖ ^ 2 : ℝ) : ℂ) := fun k => by
    rw [Complex.mul_conj, Complex.normSq_eq_norm_sq]
  have e3 : (∑ k, ((D k : ℝ) : ℂ) * ((starRingEnd ℂ) (b k) * b k)) * (∑ k, ((D k : ℝ) : ℂ) * (a k * (starRingEnd ℂ) (a k))) =
      ((∑ k, ∑ l, D k * D l * (‖b k‖ ^ 2 * ‖a l‖ ^ 2) : ℝ) : ℂ) := by
    rw [Finset.sum_mul_sum]
    push_cast
    refine Finset.sum_congr rfl fun k _ => Finset.sum_congr rfl fun l _ => ?_
    rw [e1, e2]; push_cast; ring
  have e4 : ((∑ k, ((x * d k * D k : ℝ) : ℂ) * (a k * b k)) * (starRingEnd ℂ) (∑ k, ((x * d k * D k : ℝ) : ℂ) * (a k * b k))).re =
      ∑ k, ∑ l, D k * D l * (x ^ 2 * (d k * d l) * ((a k * b k) * (starRingEnd ℂ) (a l * b l)).re) := by
    rw [map_sum, Finset.sum_mul_sum, Complex.re_sum]
    refine Finset.sum_congr rfl fun k _ => ?_
    rw [Complex.re_sum]
    refine Finset.sum_congr rfl fun l _ => ?_
    rw [map_mul (starRingEnd ℂ) ((x * d l * D l : ℝ) : ℂ), Complex.conj_ofReal]
    have : ((x * d k * D k : ℝ) : ℂ) * (a k * b k) * (((x * d l * D l : ℝ) : ℂ) * (starRingEnd ℂ) (a l * b l)) =
        ((D k * D l * (x ^ 2 * (d k * d l)) : ℝ) : ℂ) * ((a k * b k) * (starRingEnd ℂ) (a l * b l)) := by push_cast; ring
    rw [this, Complex.re_ofReal_mul]; ring
  have e5 : ∑ k, ∑ l, D k * D l * (‖b k‖ ^ 2 * ‖a l‖ ^ 2) = ∑ k, ∑ l, D k * D l * ((‖b k‖ ^ 2 * ‖a l‖ ^ 2 + ‖b l‖ ^ 2 * ‖a k‖ ^ 2) / 2) := by
    have h1 : ∑ k, ∑ l, D k * D l * (‖b k‖ ^ 2 * ‖a l‖ ^ 2) = ∑ k, ∑ l, D k * D l * (‖b l‖ ^ 2 * ‖a k‖ ^ 2) := by
      rw [Finset.sum_comm]
      exact Finset.sum_congr rfl fun k _ => Finset.sum_congr rfl fun l _ => by ring
    have h2 : ∑ k, ∑ l, D k * D l * ((‖b k‖ ^ 2 * ‖a l‖ ^ 2 + ‖b l‖ ^ 2 * ‖a k‖ ^ 2) / 2) =
        (∑ k, ∑ l, D k * D l * (‖b k‖ ^ 2 * ‖a l‖ ^ 2) + ∑ k, ∑ l, D k * D l * (‖b l‖ ^ 2 * ‖a k‖ ^ 2)) / 2 := by
      rw [← Finset.sum_add_distrib, Finset.sum_div]
      refine Finset.sum_congr rfl fun k _ => ?_
      rw [← Finset.sum_add_distrib, Finset.sum_div]
      exact Finset.sum_congr rfl fun l _ => by ring
    rw [h2, ← h1]; ring
  rw [Complex.sub_re, e3, Complex.ofReal_re, e4, e5, ← Finset.sum_sub_distrib]
  unfold vacF
  refine Finset.sum_congr rfl fun k _ => ?_
  rw [← Finset.sum_sub_distrib]
  refine Finset.sum_congr rfl fun l _ => ?_
  unfold pairTerm
  rw [hD]
  have h1 := (hw k).ne'
  have h2 := (hw l).ne'
  rw [eq_div_iff (mul_ne_zero h1 h2)]
  have h3 : 1 / (1 - (x * d k) ^ 2) * (1 / (1 - (x * d l) ^ 2)) * ((1 - (x * d k) ^ 2) * (1 - (x * d l) ^ 2)) = 1 := by
    generalize 1 - (x * d k) ^ 2 = w1 at h1
    generalize 1 - (x * d l) ^ 2 = w2 at h2
    field_simp
  linear_combination ((‖b k‖ ^ 2 * ‖a l‖ ^ 2 + ‖b l‖ ^ 2 * ‖a k‖ ^ 2) / 2 - x ^ 2 * (d k * d l) * ((a k * b k) * (starRingEnd ℂ) (a l * b l)).re) * h3

end

/-- the click probabilities of the state of `x A` -/
theorem graph_vacDet (svd : ℕ → CArr → CArr × (ℕ → ℝ) × CArr) (hsvd : SvdContract svd) (n : ℕ) (A : CArr) (x : ℝ)
    (hx : ∀ i < n, (x * (svd n A).2.1 i) ^ 2 < 1) (Q : CArr) (hQ : phase n n Q = (Bm (toMatrix n n fun i j => (x : ℂ) * A i j))⁻¹) (j : Fin n) :
    vacDet n Q j = vacF n (fun k => (svd n A).1 j k) (fun k => (svd n A).2.2 k j) (fun k => (svd n A).2.1 k) x := by
  obtain ⟨hu, hv, -, -, he⟩ := hsvd n A
  have hP := (scaled_gram svd hsvd n A x hx).1
  have hw : ∀ i : Fin n, 0 < 1 - (x * (svd n A).2.1 i) ^ 2 := fun i => by linarith [hx i i.2]
  have e : (toMatrix n n fun i j => (x : ℂ) * A i j) = (x : ℂ) • (toMatrix n n (svd n A).1 *
      diagonal (fun i : Fin n => (((svd n A).2.1 i : ℝ) : ℂ)) * toMatrix n n (svd n A).2.2) := by
    rw [he]; rfl
  have hherm : (phase n n Q)ᴴ = phase n n Q := by rw [hQ, conjTranspose_nonsing_inv, Bm_herm]
  rw [Bm_inv _ hP] at hQ
  unfold Qb at hQ
  rw [e, svd_P _ _ _ x hu hv hw, svd_MPM _ _ _ x hu hv hw, svd_MP _ _ _ x hv] at hQ
  have q1 := congrFun (congrFun hQ (Sum.inl j)) (Sum.inl j)
  have q2 := congrFun (congrFun hQ (Sum.inr j)) (Sum.inl j)
  have q3 := congrFun (congrFun hherm (Sum.inl j)) (Sum.inr j)
  have q4 := congrFun (congrFun hQ (Sum.inr j)) (Sum.inr j)
  simp only [fromBlocks_apply₁₁, fromBlocks_apply₂₁, fromBlocks_apply₂₂, diag_entry] at q1 q2 q4
  simp only [phase, of_apply, quad, Sum.elim_inl, Sum.elim_inr, conjTranspose_apply, toMatrix] at q1 q2 q3 q4
  rw [← vacF_expand (fun k : Fin n => (svd n A).2.1 k) x hw]
  unfold vacDet
  rw [add_comm (j : ℕ) n, q1, q4, ← q3, q2]
  rfl

/-- the mean number of clicks in terms of the singular values -/
noncomputable def meanF (svd : ℕ → CArr → CArr × (ℕ → ℝ) × CArr) (n : ℕ) (A : CArr) (x : ℝ) : ℝ :=
  n - ∑ j : Fin n, 1 / Real.sqrt (vacF n (fun k => (svd n A).1 j k) (fun k => (svd n A).2.2 k j) (fun k => (svd n A).2.1 k) x)

/-- C76: for every symmetric matrix whose singular values are below one, `_mean_clicks_adj` returns the mean number of clicks of the pure Gaussian state with `A` matrix
`conj(A) ⊕ A`. -/
theorem meanClicksAdj_correct (svd : ℕ → CArr → CArr × (ℕ → ℝ) × CArr) (hsvd : SvdContract svd) (n : ℕ) (A : CArr)
    (hA : ∀ i < n, ∀ j < n, A i j = A j i) (x : ℝ) (hx : ∀ i < n, (x * (svd n A).2.1 i) ^ 2 < 1) :
    ∃ c cov, meanClicksAdj n (fun i j => (x : ℂ) * A i j) = .ok c ∧ Physical (phase n n cov) 2 ∧ (phase n n cov).det = 1 ∧
      (∃ Am, Amat n cov 2 = .ok Am ∧ ∀ i < n, ∀ j < n, Am i j = (starRingEnd ℂ) (x * A i j) ∧ Am (n + i) (n + j) = x * A i j ∧
          Am i (n + j) = 0 ∧ Am (n + i) j = 0) ∧
      (∀ E : ((ℕ → Bool) → ℝ) →ₗ[ℝ] ℝ, ClickStats n cov 2 E → E (clicks n) = c) ∧ c = meanF svd n A x := by
  have hP := (scaled_gram svd hsvd n A x hx).1
  have hM : (toMatrix n n fun i j => (x : ℂ) * A i j)ᵀ = toMatrix n n fun i j => (x : ℂ) * A i j := by
    ext i j
    simp only [transpose_apply, toMatrix, of_apply]
    rw [hA j j.2 i i.2]
  obtain ⟨Q, hQ, hQp⟩ := graph_npInv (fun i j => (x : ℂ) * A i j) hM hP
  have hH := graph_husimi _ hM Q hQp
  refine ⟨meanClicks n (Covmat n Q 2) 2, Covmat n Q 2, ?_, graph_physical _ hM hP Q hQp 2 (by norm_num), ?_, ?_, ?_, ?_⟩
  · unfold meanClicksAdj
    rw [hQ]; rfl
  · have := graph_pure _ hM hP Q hQp 2 (by norm_num)
    rwa [div_self (by norm_num : (2 : ℝ) ≠ 0), one_smul] at this
  · obtain ⟨Am, h1, h2⟩ := graph_Amat _ hM hP Q hQp 2 (by norm_num)
    refine ⟨Am, h1, fun i hi j hj => ⟨?_, ?_, ?_, ?_⟩⟩
    · have := congrFun (congrFun h2 (Sum.inl ⟨i, hi⟩)) (Sum.inl ⟨j, hj⟩)
      simp only [phase, of_apply, quad, Sum.elim_inl, fromBlocks_apply₁₁, conjTranspose_apply, toMatrix] at this
      rw [this, hA j hj i hi]; rfl
    · exact congrFun (congrFun h2 (Sum.inr ⟨i, hi⟩)) (Sum.inr ⟨j, hj⟩)
    · exact congrFun (congrFun h2 (Sum.inl ⟨i, hi⟩)) (Sum.inr ⟨j, hj⟩)
    · exact congrFun (congrFun h2 (Sum.inr ⟨i, hi⟩)) (Sum.inl ⟨j, hj⟩)
  · intro E hE
    exact (meanClicks_correct n _ (Covmat_symm Q 2 hH) 2 (by norm_num) E hE).symm
  · unfold meanClicks meanF
    rw [forRange_sub n (n : ℝ) fun i => 1 / Real.sqrt (vacDet n (Qmat n (Covmat n Q 2) 2) i), Finset.sum_range]
    congr 1
    refine Finset.sum_congr rfl fun j _ => ?_
    rw [← graph_vacDet svd hsvd n A x hx Q hQp j]
    congr 2
    unfold vacDet
    have hj := j.2
    have hq := Qmat_Covmat n Q 2 (by norm_num) hH
    rw [hq _ (by omega) _ (by omega), hq _ (by omega) _ (by omega), hq _ (by omega) _ (by omega), hq _ (by omega) _ (by omega)]

theorem meanF_facts (svd : ℕ → CArr → CArr × (ℕ → ℝ) × CArr) (hsvd : SvdContract svd) (n : ℕ) (A : CArr) (j : Fin n) (x : ℝ) (h0 : 0 ≤ x)
    (hx : ∀ i < n, x * (svd n A).2.1 i < 1) :
    1 ≤ vacF n (fun k => (svd n A).1 j k) (fun k => (svd n A).2.2 k j) (fun k => (svd n A).2.1 k) x := by
  obtain ⟨hu, hv, hnn, -, -⟩ := hsvd n A
  have hvt : (toMatrix n n (svd n A).2.2)ᵀ ∈ unitaryGroup (Fin n) ℂ := by
    rw [Matrix.mem_unitaryGroup_iff]
    have := congrArg transpose ((Matrix.mem_unitaryGroup_iff').mp hv)
    rw [transpose_mul, transpose_one] at this
    convert this using 2; rfl
  have hz := vacF_zero n (fun k => (svd n A).1 j k) (fun k => (svd n A).2.2 k j) (fun k => (svd n A).2.1 k) (unitary_row n _ hu j) (unitary_row n _ hvt j)
  rcases h0.eq_or_lt with h | h
  · rw [← h, hz]
  · rw [← hz]
    exact (vacF_mono n _ _ _ (fun k => hnn k k.2) 0 x le_rfl h fun k => hx k k.2).1

theorem meanF_bounds (svd : ℕ → CArr → CArr × (ℕ → ℝ) × CArr) (hsvd : SvdContract svd) (n : ℕ) (hn : 0 < n) (A : CArr) (x : ℝ) (h0 : 0 ≤ x)
    (hx : ∀ i < n, x * (svd n A).2.1 i < 1) : 0 ≤ meanF svd n A x ∧ meanF svd n A x < n := by
  have h : ∀ j : Fin n, 0 < 1 / Real.sqrt (vacF n (fun k => (svd n A).1 j k) (fun k => (svd n A).2.2 k j) (fun k => (svd n A).2.1 k) x) ∧
      1 / Real.sqrt (vacF n (fun k => (svd n A).1 j k) (fun k => (svd n A).2.2 k j) (fun k => (svd n A).2.1 k) x) ≤ 1 := by
    intro j
    have h1 := Real.one_le_sqrt.mpr (meanF_facts svd hsvd n A j x h0 hx)
    exact ⟨by positivity, by rw [div_le_one (by linarith)]; exact h1⟩
  unfold meanF
  haveI : Nonempty (Fin n) := ⟨⟨0, hn⟩⟩
  have h1 := Finset.sum_pos (fun j _ => (h j).1) (Finset.univ_nonempty (α := Fin n))
  have h2 := Finset.sum_le_sum (fun j (_ : j ∈ Finset.univ) => (h j).2)
  rw [Finset.sum_const, Finset.card_univ, Fintype.card_fin, nsmul_eq_mul, mul_one] at h2
  constructor <;> linarith

theorem meanF_zero (svd : ℕ → CArr → CArr × (ℕ → ℝ) × CArr) (hsvd : SvdContract svd) (n : ℕ) (A : CArr) : meanF svd n A 0 = 0 := by
  obtain ⟨hu, hv, hnn, -, -⟩ := hsvd n A
  have hvt : (toMatrix n n (svd n A).2.2)ᵀ ∈ unitaryGroup (Fin n) ℂ := by
    rw [Matrix.mem_unitaryGroup_iff]
    have := congrArg transpose ((Matrix.mem_unitaryGroup_iff').mp hv)
    rw [transpose_mul, transpose_one] at this
    convert this using 2; rfl
  unfold meanF
  have : ∀ j : Fin n, vacF n (fun k => (svd n A).1 j k) (fun k => (svd n A).2.2 k j) (fun k => (svd n A).2.1 k) 0 = 1 := fun j =>
    vacF_zero n (fun k => (svd n A).1 j k) (fun k => (svd n A).2.2 k j) (fun k => (svd n A).2.1 k) (unitary_row n _ hu j) (unitary_row n _ hvt j)
  simp [this]

/-- the mean number of clicks grows strictly with the scaling -/
theorem meanF_mono (svd : ℕ → CArr → CArr × (ℕ → ℝ) × CArr) (hsvd : SvdContract svd) (n : ℕ) (hn : 0 < n) (A : CArr) (hs : 0 < (svd n A).2.1 0) (x y : ℝ) (h0 : 0 ≤ x)
    (hxy : x < y) (hy : ∀ i < n, y * (svd n A).2.1 i < 1) : meanF svd n A x < meanF svd n A y := by
  obtain ⟨hu, hv, hnn, -, -⟩ := hsvd n A
  have hx : ∀ i < n, x * (svd n A).2.1 i < 1 := fun i hi => lt_of_le_of_lt (mul_le_mul_of_nonneg_right hxy.le (hnn i hi)) (hy i hi)
  have key := fun j : Fin n => vacF_mono n (fun k => (svd n A).1 j k) (fun k => (svd n A).2.2 k j) (fun k => (svd n A).2.1 k) (fun k => hnn k k.2) x y h0 hxy fun k => hy k k.2
  have hpos := fun j => meanF_facts svd hsvd n A j x h0 hx
  have mono : ∀ a b : ℝ, 1 ≤ a → a ≤ b → 1 / Real.sqrt b ≤ 1 / Real.sqrt a := fun a b ha hab =>
    one_div_le_one_div_of_le (Real.sqrt_pos.mpr (by linarith)) (Real.sqrt_le_sqrt hab)
  have smono : ∀ a b : ℝ, 1 ≤ a → a < b → 1 / Real.sqrt b < 1 / Real.sqrt a := fun a b ha hab =>
    one_div_lt_one_div_of_lt (Real.sqrt_pos.mpr (by linarith)) (Real.sqrt_lt_sqrt (by linarith) hab)
  obtain ⟨j, hj⟩ : ∃ j : Fin n, (svd n A).2.2 0 j ≠ 0 := by
    by_contra hc
    push Not at hc
    have := unitary_row n _ hv ⟨0, hn⟩
    rw [Finset.sum_eq_zero] at this
    · norm_num at this
    · intro k _
      show ‖(svd n A).2.2 0 k‖ ^ 2 = 0
      rw [hc k]; simp
  obtain ⟨l, hl⟩ : ∃ l : Fin n, (svd n A).1 j l ≠ 0 := by
    by_contra hc
    push Not at hc
    have := unitary_row n _ hu j
    rw [Finset.sum_eq_zero] at this
    · norm_num at this
    · intro k _
      show ‖(svd n A).1 j k‖ ^ 2 = 0
      rw [hc k]; simp
  unfold meanF
  have := Finset.sum_lt_sum (fun i (_ : i ∈ Finset.univ) => mono _ _ (hpos i) (key i).1)
    ⟨j, Finset.mem_univ j, smono _ _ (hpos j) ((key j).2 ⟨⟨0, hn⟩, l, hs, hj, hl⟩)⟩
  linarith

theorem meanF_continuous (svd : ℕ → CArr → CArr × (ℕ → ℝ) × CArr) (hsvd : SvdContract svd) (n : ℕ) (A : CArr) (b : ℝ)
    (hb : ∀ i < n, b * (svd n A).2.1 i < 1) : ContinuousOn (meanF svd n A) (Set.Icc 0 b) := by
  obtain ⟨hu, hv, hnn, -, -⟩ := hsvd n A
  unfold meanF
  refine ContinuousOn.sub continuousOn_const (continuousOn_finsetSum _ fun j _ => ?_)
  refine ContinuousOn.div continuousOn_const (Real.continuous_sqrt.comp_continuousOn (vacF_continuous n _ _ _ (fun k => hnn k k.2) b fun k => hb k k.2)) ?_
  intro x hx
  have h1 := meanF_facts svd hsvd n A j x hx.1 fun i hi => lt_of_le_of_lt (mul_le_mul_of_nonneg_right hx.2 (hnn i hi)) (hb i hi)
  exact (Real.sqrt_pos.mpr (by linarith)).ne'

/-- the function whose zero is searched -/
theorem cost_eq (svd : ℕ → CArr → CArr × (ℕ → ℝ) × CArr) (hsvd : SvdContract svd) (n : ℕ) (A : CArr) (hA : ∀ i < n, ∀ j < n, A i j = A j i) (hs : 0 < (svd n A).2.1 0)
    (cMean r : ℝ) (hr0 : 0 ≤ r) (hr1 : r < 1) :
    cost n (fun i j => A i j / ((svd n A).2.1 0 : ℂ)) cMean r = cMean - meanF svd n A (r / (svd n A).2.1 0) := by
  obtain ⟨-, -, hnn, hdesc, -⟩ := hsvd n A
  unfold cost
  rw [if_neg (not_le.mpr hr1)]
  rcases hr0.eq_or_lt with h | h
  · rw [if_pos h.symm.le, ← h, zero_div, meanF_zero svd hsvd, sub_zero]
  · rw [if_neg (not_le.mpr h)]
    have hlt : ∀ i < n, (r / (svd n A).2.1 0 * (svd n A).2.1 i) ^ 2 < 1 := by
      intro i hi
      have h1 : r / (svd n A).2.1 0 * (svd n A).2.1 i ≤ r := by
        rw [div_mul_eq_mul_div, div_le_iff₀ hs]
        exact mul_le_mul_of_nonneg_left (hdesc 0 i (Nat.zero_le _) hi) hr0
      have h2 : 0 ≤ r / (svd n A).2.1 0 * (svd n A).2.1 i := mul_nonneg (div_nonneg hr0 hs.le) (hnn i hi)
      nlinarith
    obtain ⟨c, cov, hc, -, -, -, -, he⟩ := meanClicksAdj_correct svd hsvd n A hA (r / (svd n A).2.1 0) hlt
    have e : (fun i j => (r : ℂ) * (A i j / ((svd n A).2.1 0 : ℂ))) = fun i j => ((r / (svd n A).2.1 0 : ℝ) : ℂ) * A i j := by
      funext i j; push_cast; ring
    simp only [e, hc, he]

/-- C76: for every symmetric complex matrix (not zero) and every requested mean number of clicks between 0 and the number of modes, `adj_scaling_torontonian`
returns a scaling `x` with `0 ≤ x ≤ 1/s_max`.  If `x < 1/s_max` then the state of `x A` has that mean number of clicks; and if the state of some scaling `y` has it,
then `x = y`. -/
theorem adjScalingTorontonian_correct (lib : Lib) (hsvd : SvdContract lib.svd) (hroot : RootContract lib.rootScalar) (n : ℕ) (hn : 0 < n) (A : CArr)
    (hA : ∀ i < n, ∀ j < n, A i j = A j i) (hs : 0 < (lib.svd n A).2.1 0) (cMean : ℝ) (h0 : 0 ≤ cMean) (h1 : cMean ≤ n) :
    ∃ x, adjScalingTorontonian lib n A cMean = .ok x ∧ 0 ≤ x ∧ x * (lib.svd n A).2.1 0 ≤ 1 ∧
      (x * (lib.svd n A).2.1 0 < 1 → meanClicksAdj n (fun i j => (x : ℂ) * A i j) = .ok cMean) ∧
      ∀ y, 0 ≤ y → y * (lib.svd n A).2.1 0 < 1 → meanClicksAdj n (fun i j => (y : ℂ) * A i j) = .ok cMean → x = y := by
  obtain ⟨-, -, hnn, hdesc, -⟩ := hsvd n A
  have hcost := fun r => cost_eq lib.svd hsvd n A hA hs cMean r
  have hmcl := meanClicksAdj_correct lib.svd hsvd n A hA
  set s := (lib.svd n A).2.1 0 with hsd
  have hbelow : ∀ y, 0 ≤ y → y * s < 1 → ∀ i < n, y * (lib.svd n A).2.1 i < 1 := fun y hy0 hy1 i hi =>
    lt_of_le_of_lt (mul_le_mul_of_nonneg_left (hdesc 0 i (Nat.zero_le _) hi) hy0) hy1
  have hsq : ∀ y, 0 ≤ y → y * s < 1 → ∀ i < n, (y * (lib.svd n A).2.1 i) ^ 2 < 1 := fun y hy0 hy1 i hi => by
    have h2 := hbelow y hy0 hy1 i hi
    have h3 := mul_nonneg hy0 (hnn i hi)
    nlinarith
  have hval : ∀ y, 0 ≤ y → y * s < 1 → meanClicksAdj n (fun i j => (y : ℂ) * A i j) = .ok (meanF lib.svd n A y) := by
    intro y hy0 hy1
    obtain ⟨c, cov, hc, -, -, -, -, he⟩ := hmcl y (hsq y hy0 hy1)
    rw [hc, he]
  have hc1 : cost n (fun i j => A i j / (s : ℂ)) cMean 1 = cMean - n := by unfold cost; rw [if_pos le_rfl]
  have hc0 : cost n (fun i j => A i j / (s : ℂ)) cMean 0 = cMean := by unfold cost; rw [if_neg (by norm_num), if_pos le_rfl]
  obtain ⟨r, hr, hr0, hr1, hsign⟩ := (hroot (cost n (fun i j => A i j / (s : ℂ)) cMean) 0 1 (by norm_num)).2 (by
    rw [hc0, hc1]; nlinarith)
  have hrun : adjScalingTorontonian lib n A cMean = .ok (r / s) := by
    unfold adjScalingTorontonian
    simp only [← hsd]
    rw [if_neg (by push Not; exact ⟨h0, h1⟩), if_neg hn.ne', if_neg hs.ne']
    simp only [bind, Except.bind, pure, Except.pure]
    rw [hr]
    rfl
  have hrs : r / s * s = r := div_mul_cancel₀ r hs.ne'
  have hx0 : 0 ≤ r / s := div_nonneg hr0 hs.le
  -- below the end of the bracket the function is continuous
  have hzero : r < 1 → meanF lib.svd n A (r / s) = cMean := by
    intro hlt
    have hcont : ContinuousWithinAt (cost n (fun i j => A i j / (s : ℂ)) cMean) (Set.Icc 0 1) r := by
      set b := (r + 1) / 2 with hb
      have hb1 : b < 1 := by rw [hb]; linarith
      have hrb : r < b := by rw [hb]; linarith
      have hb0 : 0 ≤ b := by linarith
      have c1 : ContinuousOn (fun t => cMean - meanF lib.svd n A (t / s)) (Set.Icc 0 b) := by
        have k1 : ContinuousOn (meanF lib.svd n A ∘ fun t => t / s) (Set.Icc 0 b) := by
          refine ContinuousOn.comp (t := Set.Icc 0 (b / s)) (meanF_continuous lib.svd hsvd n A (b / s) ?_) (by fun_prop) ?_
          · exact hbelow (b / s) (div_nonneg hb0 hs.le) (by rw [div_mul_cancel₀ _ hs.ne']; exact hb1)
          · intro t ht
            exact ⟨div_nonneg ht.1 hs.le, div_le_div_of_nonneg_right ht.2 hs.le⟩
        exact ContinuousOn.sub continuousOn_const k1
      have c2 : ContinuousOn (cost n (fun i j => A i j / (s : ℂ)) cMean) (Set.Icc 0 b) :=
        c1.congr fun t ht => hcost t ht.1 (lt_of_le_of_lt ht.2 hb1)
      have c3 := c2 r ⟨hr0, hrb.le⟩
      refine c3.mono_of_mem_nhdsWithin ?_
      refine mem_nhdsWithin.mpr ⟨Set.Iio b, isOpen_Iio, hrb, ?_⟩
      rintro t ⟨ht1, ht2⟩
      exact ⟨ht2.1, (show t < b from ht1).le⟩
    have hz := zero_of_signs _ 0 1 r hcont hsign
    rw [hcost r hr0 hlt] at hz
    linarith
  refine ⟨r / s, hrun, hx0, by rw [hrs]; exact hr1, ?_, ?_⟩
  · intro hlt
    rw [hrs] at hlt
    rw [hval (r / s) hx0 (by rw [hrs]; exact hlt), hzero hlt]
  · intro y hy0 hy1 hy
    rw [hval y hy0 hy1] at hy
    have hy' : meanF lib.svd n A y = cMean := by injection hy
    have mono := fun a b => meanF_mono lib.svd hsvd n hn A hs a b
    by_cases hlt : r < 1
    · have hz := hzero hlt
      rcases lt_trichotomy (r / s) y with h | h | h
      · have := mono (r / s) y hx0 h (hbelow y hy0 hy1)
        linarith
      · exact h
      · have := mono y (r / s) hy0 h (hbelow _ hx0 (by rw [hrs]; exact hlt))
        linarith
    · exfalso
      have hre : r = 1 := le_antisymm hr1 (not_lt.mp hlt)
      obtain ⟨u, v, u1, u2, u3, v1, v2, v3, fu, fv⟩ := hsign (1 - y * s) (by linarith)
      rw [hre, abs_lt] at v3
      have hv : y * s < v := by linarith
      rcases v2.eq_or_lt with h | h
      · rw [h, hc1] at fv
        have := (meanF_bounds lib.svd hsvd n hn A y hy0 (hbelow y hy0 hy1)).2
        linarith
      · rw [hcost v v1 h] at fv
        have hyv : y < v / s := (lt_div_iff₀ hs).mpr hv
        have := mono y (v / s) hy0 hyv (hbelow (v / s) (div_nonneg v1 hs.le) (by rw [div_mul_cancel₀ _ hs.ne']; exact h))
        linarith

/-- C76: a mean number of clicks that is negative or larger than the number of modes is refused, and so is a zero matrix. -/
theorem adjScalingTorontonian_raises (lib : Lib) (n : ℕ) (A : CArr) (cMean : ℝ) :
    (cMean < 0 ∨ (n : ℝ) < cMean → adjScalingTorontonian lib n A cMean = .error .valueError) ∧
    (0 ≤ cMean → cMean ≤ n → 0 < n → (lib.svd n A).2.1 0 = 0 → adjScalingTorontonian lib n A cMean = .error .linAlgError) := by
  constructor
  · intro h
    unfold adjScalingTorontonian
    rw [if_pos h]; rfl
  · intro h0 h1 hn hs
    unfold adjScalingTorontonian
    simp only [hs]
    rw [if_neg (by push Not; exact ⟨h0, h1⟩), if_neg hn.ne', if_pos trivial]; rfl

/-- an isolated vertex never clicks -/
theorem meanF_isolated (svd : ℕ → CArr → CArr × (ℕ → ℝ) × CArr) (hsvd : SvdContract svd) (n : ℕ) (A : CArr) (hA : ∀ i < n, ∀ j < n, A i j = A j i) (j : ℕ) (hj : j < n)
    (hz : ∀ k < n, A j k = 0) (x : ℝ) (h0 : 0 ≤ x) (hx : ∀ i < n, x * (svd n A).2.1 i < 1) : meanF svd n A x ≤ n - 1 := by
  have hnn := (hsvd n A).2.2.1
  have hsq : ∀ i < n, (x * (svd n A).2.1 i) ^ 2 < 1 := fun i hi => by
    have h2 := hx i hi
    have h3 := mul_nonneg h0 (hnn i hi)
    nlinarith
  have hP := (scaled_gram svd hsvd n A x hsq).1
  have hM : (toMatrix n n fun i j => (x : ℂ) * A i j)ᵀ = toMatrix n n fun i j => (x : ℂ) * A i j := by
    ext i j
    simp only [transpose_apply, toMatrix, of_apply]
    rw [hA j j.2 i i.2]
  obtain ⟨Q, hQ, hQp⟩ := graph_npInv (fun i j => (x : ℂ) * A i j) hM hP
  have hvd := graph_vacDet svd hsvd n A x hsq Q hQp ⟨j, hj⟩
  set M := toMatrix n n fun i j => (x : ℂ) * A i j with hMd
  have hrow : ∀ k, M ⟨j, hj⟩ k = 0 := fun k => by rw [hMd]; simp [toMatrix, hz k k.2]
  have hcol : ∀ k, M k ⟨j, hj⟩ = 0 := fun k => by
    have := congrFun (congrFun hM k) ⟨j, hj⟩
    rw [← this, transpose_apply, hrow]
  have hcolP : (1 - Mᴴ * M) *ᵥ Pi.single ⟨j, hj⟩ 1 = Pi.single ⟨j, hj⟩ 1 := by
    rw [sub_mulVec, one_mulVec, ← mulVec_mulVec]
    have : M *ᵥ Pi.single ⟨j, hj⟩ 1 = 0 := by ext k; simp [hcol k]
    rw [this, mulVec_zero, sub_zero]
  have hPj : (1 - Mᴴ * M)⁻¹ *ᵥ Pi.single ⟨j, hj⟩ 1 = Pi.single ⟨j, hj⟩ 1 := by
    conv_lhs => rw [← hcolP]
    rw [mulVec_mulVec, Matrix.nonsing_inv_mul _ (isUnit_iff_ne_zero.mpr hP.det_pos.ne'), one_mulVec]
  rw [Bm_inv _ hP] at hQp
  have q1 : Q j j = 1 := by
    have := congrFun (congrFun hQp (Sum.inl ⟨j, hj⟩)) (Sum.inl ⟨j, hj⟩)
    have h2 := congrFun hPj ⟨j, hj⟩
    simp only [mulVec_single_one, Pi.single_eq_same, col_apply] at h2
    exact this.trans h2
  have q2 : Q (n + j) j = 0 := by
    have := congrFun (congrFun hQp (Sum.inr ⟨j, hj⟩)) (Sum.inl ⟨j, hj⟩)
    refine this.trans ?_
    simp only [Qb, fromBlocks_apply₂₁, Matrix.mul_apply, hrow, zero_mul, Finset.sum_const_zero]
  have q4 : Q (n + j) (n + j) = 1 := by
    have := congrFun (congrFun hQp (Sum.inr ⟨j, hj⟩)) (Sum.inr ⟨j, hj⟩)
    refine this.trans ?_
    simp [Qb, fromBlocks_apply₂₂, Matrix.mul_apply, hrow]
  have hone : vacF n (fun k => (svd n A).1 (⟨j, hj⟩ : Fin n) k) (fun k => (svd n A).2.2 k (⟨j, hj⟩ : Fin n)) (fun k => (svd n A).2.1 k) x = 1 := by
    rw [← hvd]
    unfold vacDet
    simp only [add_comm j n, q1, q2, q4]
    norm_num
  unfold meanF
  have hnonneg : ∀ i ∈ (Finset.univ : Finset (Fin n)), 0 ≤ 1 / Real.sqrt (vacF n (fun k => (svd n A).1 i k) (fun k => (svd n A).2.2 k i) (fun k => (svd n A).2.1 k) x) :=
    fun i _ => by positivity
  have := Finset.single_le_sum hnonneg (Finset.mem_univ (⟨j, hj⟩ : Fin n))
  rw [hone] at this
  norm_num at this ⊢
  linarith

/-- Finding: a request that no scaling can meet (here: an isolated vertex, and more clicks than the other modes can give) is not refused: the function returns
`1/s_max`, at which there is no state. -/
theorem adjScalingTorontonian_degenerate (lib : Lib) (hsvd : SvdContract lib.svd) (hroot : RootContract lib.rootScalar) (n : ℕ) (A : CArr)
    (hA : ∀ i < n, ∀ j < n, A i j = A j i) (hs : 0 < (lib.svd n A).2.1 0) (j : ℕ) (hj : j < n) (hz : ∀ k < n, A j k = 0) (cMean : ℝ) (h0 : (n : ℝ) - 1 < cMean) (h1 : cMean ≤ n) :
    adjScalingTorontonian lib n A cMean = .ok (1 / (lib.svd n A).2.1 0) ∧
      meanClicksAdj n (fun i j => ((1 / (lib.svd n A).2.1 0 : ℝ) : ℂ) * A i j) = .error .linAlgError := by
  have hn : 0 < n := by omega
  obtain ⟨hu, hv, hnn, hdesc, he⟩ := hsvd n A
  have hn1 : (1 : ℝ) ≤ n := by exact_mod_cast hn
  obtain ⟨x, hx, hx0, hx1, hx2, -⟩ := adjScalingTorontonian_correct lib hsvd hroot n hn A hA hs cMean (by linarith) h1
  constructor
  · rcases hx1.eq_or_lt with h | h
    · rw [hx, ← h, mul_div_assoc, div_self hs.ne', mul_one]
    · exfalso
      have hb : ∀ i < n, x * (lib.svd n A).2.1 i < 1 := fun i hi => lt_of_le_of_lt (mul_le_mul_of_nonneg_left (hdesc 0 i (Nat.zero_le _) hi) hx0) h
      obtain ⟨c, cov, hc, -, -, -, -, hcm⟩ := meanClicksAdj_correct lib.svd hsvd n A hA x fun i hi => by
        have h3 := mul_nonneg hx0 (hnn i hi)
        have := hb i hi
        nlinarith
      rw [hx2 h] at hc
      have hcc : cMean = c := by injection hc
      have := meanF_isolated lib.svd hsvd n A hA j hj hz x hx0 hb
      linarith
  · set y := 1 / (lib.svd n A).2.1 0 with hy
    have hM : (toMatrix n n fun i j => (y : ℂ) * A i j)ᵀ = toMatrix n n fun i j => (y : ℂ) * A i j := by
      ext i j
      simp only [transpose_apply, toMatrix, of_apply]
      rw [hA j j.2 i i.2]
    have e : (toMatrix n n fun i j => (y : ℂ) * A i j) = (y : ℂ) • (toMatrix n n (lib.svd n A).1 *
        diagonal (fun i : Fin n => (((lib.svd n A).2.1 i : ℝ) : ℂ)) * toMatrix n n (lib.svd n A).2.2) := by
      rw [he]; rfl
    unfold meanClicksAdj
    rw [graph_singular _ hM]
    · rfl
    · rw [e, svd_gram n _ _ hu hv (fun i : Fin n => (lib.svd n A).2.1 i) y, det_mul, det_mul, det_diagonal, Finset.prod_eq_zero (Finset.mem_univ (⟨0, hn⟩ : Fin n))]
      · simp
      · rw [hy]
        show ((1 - (1 / (lib.svd n A).2.1 0 * (lib.svd n A).2.1 0) ^ 2 : ℝ) : ℂ) = 0
        rw [one_div_mul_cancel hs.ne']; norm_num

/-- Concrete cases: two vertices and one edge, 3/2 clicks; one loop and an isolated vertex, 3/2 clicks. -/
example : ∃ (lib : Lib) (x : ℝ), adjScalingTorontonian lib 2 (fun i j => if i = j then 0 else 1) (3 / 2) = .ok x ∧ 0 ≤ x := by
  obtain ⟨lib, h1, -, h3⟩ := adjLib_exists
  have hs := entry_le_singular lib.svd h1 2 (fun i j => if i = j then 0 else 1) 0 1 (by norm_num) (by norm_num)
  obtain ⟨x, hx, hx0, -⟩ := adjScalingTorontonian_correct lib h1 h3 2 (by norm_num) (fun i j => if i = j then 0 else 1)
    (fun i _ j _ => by simp [eq_comm]) (by norm_num at hs ⊢; linarith) (3 / 2) (by norm_num) (by norm_num)
  exact ⟨lib, x, hx, hx0⟩

example : ∃ (lib : Lib) (x : ℝ), adjScalingTorontonian lib 2 (fun i j => if i = 0 ∧ j = 0 then 1 else 0) (3 / 2) = .ok x ∧
    meanClicksAdj 2 (fun i j => (x : ℂ) * (fun i j : ℕ => if i = 0 ∧ j = 0 then (1 : ℂ) else 0) i j) = .error .linAlgError := by
  obtain ⟨lib, h1, -, h3⟩ := adjLib_exists
  have hs := entry_le_singular lib.svd h1 2 (fun i j => if i = 0 ∧ j = 0 then 1 else 0) 0 0 (by norm_num) (by norm_num)
  exact ⟨lib, _, adjScalingTorontonian_degenerate lib h1 h3 2 (fun i j => if i = 0 ∧ j = 0 then 1 else 0)
    (fun i _ j _ => by simp [and_comm]) (by norm_num at hs ⊢; linarith) 1 (by norm_num) (fun k _ => by simp) (3 / 2) (by norm_num) (by norm_num)⟩

end Verif.Props
