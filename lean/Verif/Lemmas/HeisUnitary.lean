/-
Unitary infinite matrices and products of solutions of Heisenberg relations.
-/
import Verif.Lemmas.Heisenberg

set_option linter.unusedSectionVars false
set_option linter.unusedSimpArgs false

namespace Verif.Lemmas.Heis
open Verif.Spec Verif.Lemmas Matrix

noncomputable section

section general
variable {I : Type} [DecidableEq I] {U V : I → I → ℂ}

theorem inner_toL2 (f g : I → ℂ) (hf : Summable fun i => ‖f i‖ ^ 2) (hg : Summable fun i => ‖g i‖ ^ 2) :
    HasSum (fun i => (starRingEnd ℂ) (f i) * g i) (inner ℂ (toL2 f hf) (toL2 g hg)) := by
  have h := lp.hasSum_inner (𝕜 := ℂ) (toL2 f hf) (toL2 g hg)
  refine h.congr_fun fun i => ?_
  simp only [RCLike.inner_apply, toL2_apply]
  rw [mul_comm]

theorem summable_of_cols (h : ∀ j k, HasSum (fun i => (starRingEnd ℂ) (U i j) * U i k) (if j = k then 1 else 0)) (j : I) : Summable fun i => ‖U i j‖ ^ 2 := by
  have h1 := (h j j).summable
  have : (fun i => (starRingEnd ℂ) (U i j) * U i j) = fun i => ((‖U i j‖ ^ 2 : ℝ) : ℂ) := by
    funext i
    rw [Complex.ofReal_pow, ← Complex.conj_mul']
  rw [this] at h1
  exact Complex.summable_ofReal.mp h1

theorem adjoint_unitary (h : IsUnitaryFock U) : IsUnitaryFock fun i j => (starRingEnd ℂ) (U j i) := by
  constructor
  · intro j k
    have := h.rows k j
    simp only [Complex.conj_conj]
    rw [show (if j = k then (1 : ℂ) else 0) = if k = j then 1 else 0 by simp only [eq_comm]]
    exact this.congr_fun fun i => mul_comm _ _
  · intro j k
    have := h.cols k j
    simp only [Complex.conj_conj]
    rw [show (if j = k then (1 : ℂ) else 0) = if k = j then 1 else 0 by simp only [eq_comm]]
    exact this.congr_fun fun i => mul_comm _ _

/-- the columns as vectors -/
def colL2 (hs : ∀ j, Summable fun i => ‖U i j‖ ^ 2) (j : I) : L2 I := toL2 (fun i => U i j) (hs j)

theorem col_orthonormal (hs : ∀ j, Summable fun i => ‖U i j‖ ^ 2)
    (h : ∀ j k, HasSum (fun i => (starRingEnd ℂ) (U i j) * U i k) (if j = k then 1 else 0)) : Orthonormal ℂ (colL2 hs) := by
  rw [orthonormal_iff_ite]
  intro j k
  exact (inner_toL2 _ _ (hs j) (hs k)).unique (h j k)

theorem cols_of_orthonormal (hs : ∀ j, Summable fun i => ‖U i j‖ ^ 2) (h : Orthonormal ℂ (colL2 hs)) (j k : I) :
    HasSum (fun i => (starRingEnd ℂ) (U i j) * U i k) (if j = k then 1 else 0) := by
  have := inner_toL2 _ _ (hs j) (hs k)
  rw [orthonormal_iff_ite] at h
  rw [show inner ℂ (toL2 (fun i => U i j) (hs j)) (toL2 (fun i => U i k) (hs k)) = _ from h j k] at this
  exact this

/-- a matrix with orthonormal columns as an isometry -/
theorem exists_isometry (hs : ∀ j, Summable fun i => ‖U i j‖ ^ 2) (h : Orthonormal ℂ (colL2 hs)) :
    ∃ T : L2 I →ₗᵢ[ℂ] L2 I, ∀ f i, HasSum (fun m => U i m * f m) (T f i) := by
  refine ⟨h.orthogonalFamily.linearIsometry, fun f i => ?_⟩
  have h1 := h.orthogonalFamily.hasSum_linearIsometry f
  have h2 := h1.mapL (lp.evalCLM ℂ (fun _ : I => ℂ) 2 i)
  refine h2.congr_fun fun m => ?_
  show U i m * f m = f m * U i m
  rw [mul_comm]

/-- the product of two matrices with orthonormal columns -/
theorem mul_cols (hU : IsUnitaryFock U) (hV : IsUnitaryFock V) :
    (∀ i j, Summable fun m => U i m * V m j) ∧
    ∀ j k, HasSum (fun i => (starRingEnd ℂ) (∑' m, U i m * V m j) * ∑' m, U i m * V m k) (if j = k then 1 else 0) := by
  have hu := summable_of_cols hU.cols
  have hv := summable_of_cols hV.cols
  obtain ⟨T, hT⟩ := exists_isometry hu (col_orthonormal hu hU.cols)
  have hW : ∀ i j, HasSum (fun m => U i m * V m j) (T (colL2 hv j) i) := fun i j => hT (colL2 hv j) i
  refine ⟨fun i j => (hW i j).summable, fun j k => ?_⟩
  have h := lp.hasSum_inner (𝕜 := ℂ) (T (colL2 hv j)) (T (colL2 hv k))
  rw [LinearIsometry.inner_map_map, (orthonormal_iff_ite.mp (col_orthonormal hv hV.cols)) j k] at h
  refine h.congr_fun fun i => ?_
  rw [(hW i j).tsum_eq, (hW i k).tsum_eq]
  simp only [RCLike.inner_apply]
  rw [mul_comm]

theorem mul_unitary (hU : IsUnitaryFock U) (hV : IsUnitaryFock V) : IsUnitaryFock fun i j => ∑' m, U i m * V m j := by
  refine ⟨(mul_cols hU hV).2, fun j k => ?_⟩
  have h := (mul_cols (adjoint_unitary hV) (adjoint_unitary hU)).2 k j
  rw [show (if j = k then (1 : ℂ) else 0) = if k = j then 1 else 0 by simp only [eq_comm]]
  refine h.congr_fun fun i => ?_
  have e : ∀ l, (∑' m, (starRingEnd ℂ) (V m i) * (starRingEnd ℂ) (U l m)) = (starRingEnd ℂ) (∑' m, U l m * V m i) := by
    intro l
    rw [Complex.conj_tsum]
    refine tsum_congr fun m => ?_
    rw [map_mul, mul_comm]
  rw [e, e, Complex.conj_conj, mul_comm]

/-- Bessel's inequality for the rows -/
theorem rows_le (hs : ∀ j, Summable fun i => ‖U i j‖ ^ 2) (h : Orthonormal ℂ (colL2 hs)) (i : I) : ∑' j, ‖U i j‖ ^ 2 ≤ 1 := by
  have hb := h.tsum_inner_products_le (lp.single 2 i (1 : ℂ))
  have e : ∀ j, inner ℂ (colL2 hs j) (lp.single 2 i (1 : ℂ)) = (starRingEnd ℂ) (U i j) := by
    intro j
    rw [lp.inner_single_right]
    simp only [RCLike.inner_apply, one_mul]
    rfl
  simp only [e, RCLike.norm_conj] at hb
  refine hb.trans (le_of_eq ?_)
  rw [lp.norm_single (by norm_num)]
  simp

end general

variable {ι : Type} [Fintype ι] [DecidableEq ι] {E F E' F' : Matrix ι ι ℂ} {α α' : ι → ℂ} {U V : Idx ι → Idx ι → ℂ}

theorem heis_cols (hb : Bog E F) (h : Heisenberg E F α U) (hs : ∀ j, Summable fun i => ‖U i j‖ ^ 2) (hn : ∑' i, ‖U i 0‖ ^ 2 = 1) :
    Orthonormal ℂ (colL2 hs) := by
  rw [orthonormal_iff_ite]
  intro j k
  have := heis_gram hb h hs j k
  have e : inner ℂ (toL2 (fun i => U i 0) (hs 0)) (toL2 (fun i => U i 0) (hs 0)) = 1 := by
    have h1 := inner_toL2 _ _ (hs 0) (hs 0)
    have h2 : HasSum (fun i => (starRingEnd ℂ) (U i 0) * U i 0) ((1 : ℝ) : ℂ) := by
      have h3 := (hs 0).hasSum
      rw [hn] at h3
      refine (Complex.hasSum_ofReal.mpr h3).congr_fun fun i => ?_
      rw [Complex.ofReal_pow, ← Complex.conj_mul']
    rw [h1.unique h2]; simp
  rw [e] at this
  exact this

theorem bog_adjoint (hb : Bog E F) : Bog Eᴴ (-Fᵀ) := by
  have hc' : E.map (starRingEnd ℂ) = (Eᴴ)ᵀ := rfl
  have hf' : F.map (starRingEnd ℂ) = (Fᴴ)ᵀ := rfl
  have e1 : (E.map (starRingEnd ℂ))ᵀ = Eᴴ := rfl
  have e2 : (F.map (starRingEnd ℂ))ᵀ = Fᴴ := rfl
  have e3 : ((Eᴴ).map (starRingEnd ℂ)) = Eᵀ := by ext i j; simp
  have e4 : ((-Fᵀ).map (starRingEnd ℂ)) = -Fᴴ := by ext i j; simp
  have e5 : (-Fᵀ)ᴴ = -F.map (starRingEnd ℂ) := by ext i j; simp
  have hd := hb.d
  have hbb := hb.b
  constructor
  · rw [conjTranspose_conjTranspose, e4, transpose_neg, transpose_transpose, neg_mul_neg, hb.c]
  · rw [conjTranspose_conjTranspose, e3, transpose_neg, transpose_transpose, Matrix.mul_neg, Matrix.neg_mul, hd]
  · rw [conjTranspose_conjTranspose, e5, neg_mul_neg, hb.a]
  · rw [transpose_neg, transpose_transpose, Matrix.mul_neg, Matrix.neg_mul, hbb]
    rfl

/-- if the Heisenberg relations and the inverse relations have normalisable solutions, normalised ones are unitary -/
theorem heis_unitary (hb : Bog E F) (hE : IsUnit E) (h : Heisenberg E F α U) (hs : ∀ j, Summable fun i => ‖U i j‖ ^ 2) (hn : ∑' i, ‖U i 0‖ ^ 2 = 1)
    (h' : Heisenberg Eᴴ (-Fᵀ) (-(Eᴴ *ᵥ α - Fᵀ *ᵥ fun k => (starRingEnd ℂ) (α k))) V) (hs' : ∀ j, Summable fun i => ‖V i j‖ ^ 2) (hn' : ∑' i, ‖V i 0‖ ^ 2 = 1) :
    IsUnitaryFock U := by
  have ho := heis_cols hb h hs hn
  have hb' := bog_adjoint hb
  have ho' := heis_cols hb' h' hs' hn'
  have ha := heis_adjoint hb h
  have hEu : IsUnit Eᴴ := (Matrix.isUnit_conjTranspose E).mpr hE
  have hp := heis_prop hEu ha h'
  have hV0 : V 0 0 ≠ 0 := by
    intro h0
    have := heis_zero hEu h' h0
    simp only [this, norm_zero, ne_eq, OfNat.ofNat_ne_zero, not_false_eq_true, zero_pow, tsum_zero] at hn'
    norm_num at hn'
  set c : ℂ := (starRingEnd ℂ) (U 0 0) / V 0 0 with hc
  have hUV : ∀ i j, (starRingEnd ℂ) (U j i) = c * V i j := by
    intro i j
    rw [hc, div_mul_eq_mul_div, eq_div_iff hV0, mul_comm]
    exact hp i j
  have hnorm : ∀ i j, ‖U j i‖ ^ 2 = ‖c‖ ^ 2 * ‖V i j‖ ^ 2 := by
    intro i j
    rw [← mul_pow, ← norm_mul, ← hUV, RCLike.norm_conj]
  have h1 : ‖c‖ ^ 2 ≤ 1 := by
    have := rows_le hs ho 0
    simp only [hnorm, tsum_mul_left, hn', mul_one] at this
    exact this
  have h2 : 1 ≤ ‖c‖ ^ 2 := by
    have := rows_le hs' ho' 0
    have e : ∑' i, ‖U i 0‖ ^ 2 = ‖c‖ ^ 2 * ∑' j, ‖V 0 j‖ ^ 2 := by
      simp only [hnorm, tsum_mul_left]
    rw [hn] at e
    rw [e]
    exact mul_le_of_le_one_right (by positivity) this
  have hc1 : ‖c‖ ^ 2 = 1 := le_antisymm h1 h2
  have hcc : c * (starRingEnd ℂ) c = 1 := by
    rw [Complex.mul_conj', ← Complex.ofReal_pow, hc1]; simp
  refine ⟨cols_of_orthonormal hs ho, fun j k => ?_⟩
  have hv := cols_of_orthonormal hs' ho' k j
  rw [show (if j = k then (1 : ℂ) else 0) = if k = j then 1 else 0 by simp only [eq_comm]]
  refine hv.congr_fun fun i => ?_
  have e1 := hUV i j
  have e2 := congrArg (starRingEnd ℂ) (hUV i k)
  rw [Complex.conj_conj, map_mul] at e2
  rw [e1, e2]
  linear_combination (V i j * (starRingEnd ℂ) (V i k)) * hcc

/-- annihilation and creation operators on the columns -/
theorem heis_ops (h : Heisenberg E F α U) (hs : ∀ j, Summable fun i => ‖U i j‖ ^ 2) (k : ι) (j : Idx ι) :
    ∃ a c : L2 (Idx ι), (∀ i, a i = root (i k + 1) * U (i + Pi.single k 1) j) ∧ (∀ i, c i = root (i k) * U (i - Pi.single k 1) j) ∧
      a = (∑ m, ((E k m * root (j m)) • colL2 hs (j - Pi.single m 1) + (F k m * root (j m + 1)) • colL2 hs (j + Pi.single m 1))) + (α k) • colL2 hs j ∧
      c = (∑ m, ((starRingEnd ℂ (E k m) * root (j m + 1)) • colL2 hs (j + Pi.single m 1) + (starRingEnd ℂ (F k m) * root (j m)) • colL2 hs (j - Pi.single m 1))) +
        (starRingEnd ℂ (α k)) • colL2 hs j := by
  have hcoe : ∀ j i, colL2 hs j i = U i j := fun j i => rfl
  refine ⟨_, _, fun i => ?_, fun i => ?_, rfl, rfl⟩
  · rw [h.ann]
    simp only [lp.coeFn_add, lp.coeFn_sum, lp.coeFn_smul, Pi.add_apply, Finset.sum_apply, Pi.smul_apply, hcoe, smul_eq_mul, mul_assoc]
  · rw [h.cre]
    simp only [lp.coeFn_add, lp.coeFn_sum, lp.coeFn_smul, Pi.add_apply, Finset.sum_apply, Pi.smul_apply, hcoe, smul_eq_mul, mul_assoc]

theorem heis_mul (hb : Bog E F) (h : Heisenberg E F α U) (hU : IsUnitaryFock U) (h' : Heisenberg E' F' α' V) (hV : IsUnitaryFock V) :
    Heisenberg (E * E' + F * F'.map (starRingEnd ℂ)) (E * F' + F * E'.map (starRingEnd ℂ)) (E *ᵥ α' + F *ᵥ (fun k => (starRingEnd ℂ) (α' k)) + α)
      fun i j => ∑' m, U i m * V m j := by
  have hv := summable_of_cols hV.cols
  have hr : ∀ i, Summable fun m => ‖(starRingEnd ℂ) (U i m)‖ ^ 2 := summable_of_cols (adjoint_unitary hU).cols
  have ha := heis_adjoint hb h
  have hW : ∀ i j, ∑' m, U i m * V m j = inner ℂ (colL2 hr i) (colL2 hv j) := by
    intro i j
    have := inner_toL2 _ _ (hr i) (hv j)
    simp only [Complex.conj_conj] at this
    exact this.tsum_eq
  choose A C hA hC hA' hC' using heis_ops (U := fun i j => (starRingEnd ℂ) (U j i)) ha hr
  choose A2 C2 hA2 hC2 hA2' hC2' using heis_ops h' hv
  have sA : ∀ k i j, inner ℂ (C k i) (colL2 hv j) = inner ℂ (colL2 hr i) (A2 k j) := fun k i j =>
    (inner_ann k (colL2 hr i) (colL2 hv j) (C k i) (A2 k j) (fun m => hA2 k j m) fun m => hC k i m).symm
  have sC : ∀ k i j, inner ℂ (A k i) (colL2 hv j) = inner ℂ (colL2 hr i) (C2 k j) := by
    intro k i j
    have := inner_ann k (colL2 hv j) (colL2 hr i) (C2 k j) (A k i) (fun m => hA k i m) fun m => hC2 k j m
    have := congrArg (starRingEnd ℂ) this
    rwa [inner_conj_symm, inner_conj_symm] at this
  have r1 : ∀ k i, root (i k + 1) • colL2 hr (i + Pi.single k 1) = (∑ n, ((starRingEnd ℂ (E k n)) • C n i + (starRingEnd ℂ (F k n)) • A n i)) + (starRingEnd ℂ (α k)) • colL2 hr i := by
    intro k i
    ext m
    have := congrArg (starRingEnd ℂ) (h.ann k i m)
    simp only [map_mul, map_add, map_sum, root_conj] at this
    simp only [lp.coeFn_add, lp.coeFn_sum, lp.coeFn_smul, Pi.add_apply, Finset.sum_apply, Pi.smul_apply, smul_eq_mul, hA, hC]
    exact this
  have r2 : ∀ k i, root (i k) • colL2 hr (i - Pi.single k 1) = (∑ n, ((E k n) • A n i + (F k n) • C n i)) + (α k) • colL2 hr i := by
    intro k i
    ext m
    have := congrArg (starRingEnd ℂ) (h.cre k i m)
    simp only [map_mul, map_add, map_sum, root_conj, Complex.conj_conj] at this
    simp only [lp.coeFn_add, lp.coeFn_sum, lp.coeFn_smul, Pi.add_apply, Finset.sum_apply, Pi.smul_apply, smul_eq_mul, hA, hC]
    exact this
  constructor
  · intro k i j
    simp only [hW]
    have e : root (i k + 1) * inner ℂ (colL2 hr (i + Pi.single k 1)) (colL2 hv j) = inner ℂ (root (i k + 1) • colL2 hr (i + Pi.single k 1)) (colL2 hv j) := by
      rw [inner_smul_left, root_conj]
    rw [e, r1]
    simp only [inner_add_left, sum_inner, inner_smul_left, Complex.conj_conj, sA, sC, hA2', hC2', inner_add_right, inner_sum, inner_smul_right]
    simp only [Matrix.add_apply, Matrix.mul_apply, Pi.add_apply, Matrix.mulVec, dotProduct, Matrix.map_apply, add_mul, mul_add, Finset.sum_add_distrib, Finset.sum_mul, Finset.mul_sum, mul_assoc]
    have sc : ∀ (A B : Matrix ι ι ℂ) (x : ι → ℂ), ∑ n, ∑ m, A k n * (B n m * x m) = ∑ m, ∑ n, A k n * (B n m * x m) := fun A B x => Finset.sum_comm
    have e1 := sc E E' fun m => root (j m) * inner ℂ (colL2 hr i) (colL2 hv (j - Pi.single m 1))
    have e2 := sc F (F'.map (starRingEnd ℂ)) fun m => root (j m) * inner ℂ (colL2 hr i) (colL2 hv (j - Pi.single m 1))
    have e3 := sc E F' fun m => root (j m + 1) * inner ℂ (colL2 hr i) (colL2 hv (j + Pi.single m 1))
    have e4 := sc F (E'.map (starRingEnd ℂ)) fun m => root (j m + 1) * inner ℂ (colL2 hr i) (colL2 hv (j + Pi.single m 1))
    simp only [Matrix.map_apply] at e1 e2 e3 e4
    linear_combination e1 + e2 + e3 + e4
  · intro k i j
    simp only [hW]
    have e : root (i k) * inner ℂ (colL2 hr (i - Pi.single k 1)) (colL2 hv j) = inner ℂ (root (i k) • colL2 hr (i - Pi.single k 1)) (colL2 hv j) := by
      rw [inner_smul_left, root_conj]
    rw [e, r2]
    simp only [inner_add_left, sum_inner, inner_smul_left, Complex.conj_conj, sA, sC, hA2', hC2', inner_add_right, inner_sum, inner_smul_right]
    simp only [Matrix.add_apply, Matrix.mul_apply, Pi.add_apply, Matrix.mulVec, dotProduct, Matrix.map_apply, add_mul, mul_add, Finset.sum_add_distrib, Finset.sum_mul, Finset.mul_sum,
      map_add, map_sum, map_mul, Complex.conj_conj, mul_assoc]
    have sc : ∀ (A B : Matrix ι ι ℂ) (x : ι → ℂ), ∑ n, ∑ m, A k n * (B n m * x m) = ∑ m, ∑ n, A k n * (B n m * x m) := fun A B x => Finset.sum_comm
    have e1 := sc (E.map (starRingEnd ℂ)) (F'.map (starRingEnd ℂ)) fun m => root (j m) * inner ℂ (colL2 hr i) (colL2 hv (j - Pi.single m 1))
    have e2 := sc (F.map (starRingEnd ℂ)) E' fun m => root (j m) * inner ℂ (colL2 hr i) (colL2 hv (j - Pi.single m 1))
    have e3 := sc (E.map (starRingEnd ℂ)) (E'.map (starRingEnd ℂ)) fun m => root (j m + 1) * inner ℂ (colL2 hr i) (colL2 hv (j + Pi.single m 1))
    have e4 := sc (F.map (starRingEnd ℂ)) F' fun m => root (j m + 1) * inner ℂ (colL2 hr i) (colL2 hv (j + Pi.single m 1))
    simp only [Matrix.map_apply] at e1 e2 e3 e4
    linear_combination e1 + e2 + e3 + e4

end

end Verif.Lemmas.Heis
