/-
C75: encoding a graph into a Gaussian state.  C76: the click-number version and the rescaling of thermal adjacency matrices.
-/
import Verif.Lemmas.Graph
import Verif.Spec.RootFinding
import Verif.Props.LinAlgExists
import Verif.Props.Clicks
import Mathlib.Topology.Algebra.Order.Field
import Mathlib.Topology.ContinuousOn

namespace Verif.Props
open Verif.Model Verif.Model.Symp Verif.Model.Conv Verif.Model.Means Verif.Model.Adj Verif.Spec Verif.Lemmas Verif.Lemmas.Symp Verif.Lemmas.Graph Matrix
open scoped ComplexOrder

/-- the matrix `1 - Mᴴ M` of `M = x A`, in the basis of singular vectors -/
theorem svd_gram (n : ℕ) (u v : Matrix (Fin n) (Fin n) ℂ) (hu : u ∈ unitaryGroup (Fin n) ℂ) (hv : v ∈ unitaryGroup (Fin n) ℂ) (d : Fin n → ℝ) (x : ℝ) :
    1 - ((x : ℂ) • (u * diagonal (fun i => (d i : ℂ)) * v))ᴴ * ((x : ℂ) • (u * diagonal (fun i => (d i : ℂ)) * v)) =
      vᴴ * diagonal (fun i => ((1 - (x * d i) ^ 2 : ℝ) : ℂ)) * v := by
  have hu1 : uᴴ * u = 1 := (Matrix.mem_unitaryGroup_iff').mp hu
  have hv1 : vᴴ * v = 1 := (Matrix.mem_unitaryGroup_iff').mp hv
  have hd : (diagonal fun i => (d i : ℂ))ᴴ = diagonal fun i => (d i : ℂ) := by
    rw [diagonal_conjTranspose]; congr 1; ext i; simp
  have e1 : (diagonal fun i => ((1 - (x * d i) ^ 2 : ℝ) : ℂ)) = 1 - ((x : ℂ) * x) • ((diagonal fun i => (d i : ℂ)) * diagonal fun i => (d i : ℂ)) := by
    rw [diagonal_mul_diagonal, ← diagonal_one, ← diagonal_smul, diagonal_sub]
    congr 1; ext i; simp; ring
  rw [conjTranspose_smul, conjTranspose_mul, conjTranspose_mul, hd, e1, Matrix.mul_sub, Matrix.sub_mul, Matrix.mul_one, hv1]
  congr 1
  rw [smul_mul_assoc, mul_smul_comm, smul_smul, mul_smul_comm, smul_mul_assoc]
  congr 1
  · simp
  · calc vᴴ * (diagonal (fun i => (d i : ℂ)) * uᴴ) * (u * diagonal (fun i => (d i : ℂ)) * v)
        = vᴴ * (diagonal (fun i => (d i : ℂ)) * (uᴴ * u) * diagonal (fun i => (d i : ℂ))) * v := by simp only [Matrix.mul_assoc]
      _ = _ := by rw [hu1, Matrix.mul_one]

theorem gram_posDef (n : ℕ) (v : Matrix (Fin n) (Fin n) ℂ) (hv : v ∈ unitaryGroup (Fin n) ℂ) (w : Fin n → ℝ) (hw : ∀ i, 0 < w i) :
    (vᴴ * diagonal (fun i => (w i : ℂ)) * v).PosDef := by
  have hv1 : v * vᴴ = 1 := (Matrix.mem_unitaryGroup_iff).mp hv
  have hv2 : vᴴ * v = 1 := (Matrix.mem_unitaryGroup_iff').mp hv
  have hd : (diagonal (fun i => (w i : ℂ))).PosDef := PosDef.diagonal fun i => by exact_mod_cast hw i
  refine hd.conjTranspose_mul_mul_same (B := v) ?_
  intro a b hab
  have := congrArg (fun y => vᴴ *ᵥ y) hab
  simpa [Matrix.mulVec_mulVec, hv2] using this

theorem gram_inv_trace (n : ℕ) (v : Matrix (Fin n) (Fin n) ℂ) (hv : v ∈ unitaryGroup (Fin n) ℂ) (w : Fin n → ℝ) (hw : ∀ i, 0 < w i) :
    ((vᴴ * diagonal (fun i => (w i : ℂ)) * v)⁻¹).trace.re = ∑ i, 1 / w i := by
  have hv1 : v * vᴴ = 1 := (Matrix.mem_unitaryGroup_iff).mp hv
  have hv2 : vᴴ * v = 1 := (Matrix.mem_unitaryGroup_iff').mp hv
  have e : (vᴴ * diagonal (fun i => (w i : ℂ)) * v)⁻¹ = vᴴ * diagonal (fun i => ((1 / w i : ℝ) : ℂ)) * v := by
    apply inv_eq_right_inv
    calc vᴴ * diagonal (fun i => (w i : ℂ)) * v * (vᴴ * diagonal (fun i => ((1 / w i : ℝ) : ℂ)) * v)
        = vᴴ * (diagonal (fun i => (w i : ℂ)) * (v * vᴴ) * diagonal (fun i => ((1 / w i : ℝ) : ℂ))) * v := by simp only [Matrix.mul_assoc]
      _ = 1 := by
        rw [hv1, Matrix.mul_one, diagonal_mul_diagonal]
        have : (fun i => (w i : ℂ) * ((1 / w i : ℝ) : ℂ)) = fun _ => 1 := by
          ext i
          have : (w i : ℂ) ≠ 0 := by exact_mod_cast (hw i).ne'
          push_cast; field_simp
        rw [this, diagonal_one, Matrix.mul_one, hv2]
  rw [e, Matrix.trace_mul_comm, ← Matrix.mul_assoc, hv1, Matrix.one_mul, trace_diagonal, ← Complex.ofReal_sum, Complex.ofReal_re]

/-- the two consequences for the scaled matrix `x A` of an array `A` -/
theorem scaled_gram (svd : ℕ → CArr → CArr × (ℕ → ℝ) × CArr) (hsvd : SvdContract svd) (n : ℕ) (A : CArr) (x : ℝ)
    (hx : ∀ i < n, (x * (svd n A).2.1 i) ^ 2 < 1) :
    (1 - (toMatrix n n fun i j => (x : ℂ) * A i j)ᴴ * toMatrix n n fun i j => (x : ℂ) * A i j).PosDef ∧
      ((1 - (toMatrix n n fun i j => (x : ℂ) * A i j)ᴴ * toMatrix n n fun i j => (x : ℂ) * A i j)⁻¹).trace.re - n =
        meanPhotonNumber n x (svd n A).2.1 := by
  obtain ⟨hu, hv, -, -, he⟩ := hsvd n A
  have e : (toMatrix n n fun i j => (x : ℂ) * A i j) = (x : ℂ) • (toMatrix n n (svd n A).1 *
      diagonal (fun i : Fin n => (((svd n A).2.1 i : ℝ) : ℂ)) * toMatrix n n (svd n A).2.2) := by
    rw [he]; rfl
  rw [e, svd_gram n _ _ hu hv (fun i : Fin n => (svd n A).2.1 i) x]
  have hw : ∀ i : Fin n, 0 < 1 - (x * (svd n A).2.1 i) ^ 2 := fun i => by linarith [hx i i.2]
  refine ⟨gram_posDef n _ hv _ hw, ?_⟩
  rw [gram_inv_trace n _ hv _ hw]
  unfold Adj.meanPhotonNumber
  rw [← List.sum_toFinset _ List.nodup_range, List.toFinset_range, Finset.sum_range]
  have : (n : ℝ) = ∑ _i : Fin n, (1 : ℝ) := by simp
  rw [this, ← Finset.sum_sub_distrib]
  refine Finset.sum_congr rfl fun i _ => ?_
  have := (hw i).ne'
  rw [eq_div_iff this, sub_mul, div_mul_cancel₀ _ this]
  ring

/-- the mean photon number as a function of the scaling -/
theorem meanPhotonNumber_eq (n : ℕ) (x : ℝ) (vals : ℕ → ℝ) :
    meanPhotonNumber n x vals = ∑ i ∈ Finset.range n, (x * vals i) ^ 2 / (1 - (x * vals i) ^ 2) := by
  unfold Adj.meanPhotonNumber
  rw [← List.sum_toFinset _ List.nodup_range, List.toFinset_range]

theorem meanPhotonNumber_mono (n : ℕ) (vals : ℕ → ℝ) (hv : ∀ i < n, 0 ≤ vals i) (x y : ℝ) (hx : 0 ≤ x) (hxy : x < y) (hy : ∀ i < n, y * vals i < 1)
    (i0 : ℕ) (hi0 : i0 < n) (hpos : 0 < vals i0) : meanPhotonNumber n x vals < meanPhotonNumber n y vals := by
  rw [meanPhotonNumber_eq, meanPhotonNumber_eq]
  have key : ∀ i < n, (x * vals i) ^ 2 ≤ (y * vals i) ^ 2 ∧ (y * vals i) ^ 2 < 1 := by
    intro i hi
    have h1 := hv i hi
    have h2 := hy i hi
    have h3 : x * vals i ≤ y * vals i := mul_le_mul_of_nonneg_right hxy.le h1
    have h4 : 0 ≤ x * vals i := mul_nonneg hx h1
    constructor <;> nlinarith
  refine Finset.sum_lt_sum ?_ ⟨i0, Finset.mem_range.mpr hi0, ?_⟩
  · intro i hi
    obtain ⟨h1, h2⟩ := key i (Finset.mem_range.mp hi)
    rw [div_le_div_iff₀ (by linarith) (by linarith)]
    nlinarith
  · obtain ⟨h1, h2⟩ := key i0 hi0
    have h3 : x * vals i0 < y * vals i0 := mul_lt_mul_of_pos_right hxy hpos
    have h4 : 0 ≤ x * vals i0 := mul_nonneg hx hpos.le
    have h5 : (x * vals i0) ^ 2 < (y * vals i0) ^ 2 := by nlinarith
    rw [div_lt_div_iff₀ (by linarith) (by linarith)]
    nlinarith

theorem meanPhotonNumber_continuous (n : ℕ) (vals : ℕ → ℝ) (hv : ∀ i < n, 0 ≤ vals i) (b : ℝ) (hb : ∀ i < n, b * vals i < 1) (c : ℝ) :
    ContinuousOn (fun x => meanPhotonNumber n x vals - c) (Set.Icc 0 b) := by
  simp only [meanPhotonNumber_eq]
  refine ContinuousOn.sub (continuousOn_finsetSum _ fun i hi => ?_) continuousOn_const
  have hin := Finset.mem_range.mp hi
  refine ContinuousOn.div (by fun_prop) (by fun_prop) ?_
  intro x hx
  have h1 : x * vals i ≤ b * vals i := mul_le_mul_of_nonneg_right hx.2 (hv i hin)
  have h2 : 0 ≤ x * vals i := mul_nonneg hx.1 (hv i hin)
  have h3 := hb i hin
  nlinarith

/-- the largest mean photon number that the search can reach -/
noncomputable def reach (s : ℝ) : ℝ := s ^ 2 / (1e-10 * (2 * s + 1e-10))

/-- it exceeds 499 whatever the matrix -/
theorem reach_bound (s : ℝ) (hs : 1e-7 < s) : 499 ≤ reach s := by
  unfold reach
  have : (0 : ℝ) < s := by norm_num at hs ⊢; linarith
  rw [le_div_iff₀ (by positivity)]
  norm_num at hs ⊢
  nlinarith

theorem adjScaling_spec (lib : Lib) (hsvd : SvdContract lib.svd) (hroot : RootContract lib.rootScalar) (n : ℕ) (hn : 0 < n) (A : CArr) (nMean : ℝ)
    (hs : 1e-7 < (lib.svd n A).2.1 0) (h0 : 0 ≤ nMean) (hmax : nMean ≤ reach ((lib.svd n A).2.1 0)) :
    ∃ x, adjScaling lib n A nMean = .ok x ∧ 0 ≤ x ∧ (∀ i < n, x * (lib.svd n A).2.1 i < 1) ∧ meanPhotonNumber n x (lib.svd n A).2.1 = nMean := by
  obtain ⟨-, -, hnn, hdesc, -⟩ := hsvd n A
  set ls := (lib.svd n A).2.1 with hls
  have hs0 : 0 < ls 0 := by norm_num at hs ⊢; linarith
  set b : ℝ := 1 / (1e-10 + ls 0) with hb
  have hb0 : 0 < b := by rw [hb]; positivity
  have hbl : ∀ i < n, b * ls i < 1 := by
    intro i hi
    have h1 := hdesc 0 i (Nat.zero_le _) hi
    rw [hb, one_div, inv_mul_lt_iff₀ (by positivity)]
    norm_num; linarith
  have hf0 : meanPhotonNumber n 0 ls = 0 := by rw [meanPhotonNumber_eq]; simp
  have hfb : reach (ls 0) ≤ meanPhotonNumber n b ls := by
    rw [meanPhotonNumber_eq]
    have h1 : reach (ls 0) = (b * ls 0) ^ 2 / (1 - (b * ls 0) ^ 2) := by
      have h2 : 1 - (b * ls 0) ^ 2 ≠ 0 := by
        have := hbl 0 hn
        have : 0 ≤ b * ls 0 := by positivity
        nlinarith
      unfold reach
      rw [div_eq_div_iff (by positivity) h2, hb]
      have : (1e-10 : ℝ) + ls 0 ≠ 0 := by positivity
      field_simp
      ring
    rw [h1]
    refine Finset.single_le_sum (f := fun i => (b * ls i) ^ 2 / (1 - (b * ls i) ^ 2)) (fun i hi => ?_) (Finset.mem_range.mpr hn)
    have h3 := hbl i (Finset.mem_range.mp hi)
    have h4 : 0 ≤ b * ls i := mul_nonneg hb0.le (hnn i (Finset.mem_range.mp hi))
    exact div_nonneg (sq_nonneg _) (by nlinarith)
  obtain ⟨r, hr, hr0, hrb, hsign⟩ := (hroot (fun x => meanPhotonNumber n x ls - nMean) 0 b hb0.le).2 (by
    simp only [hf0]
    nlinarith)
  have hz := zero_of_signs _ 0 b r (meanPhotonNumber_continuous n ls hnn b hbl nMean r ⟨hr0, hrb⟩) hsign
  refine ⟨r, ?_, hr0, fun i hi => lt_of_le_of_lt (mul_le_mul_of_nonneg_right hrb (hnn i hi)) (hbl i hi), by linarith⟩
  unfold adjScaling
  simp only [← hls]
  rw [if_neg hn.ne', if_neg (by norm_num at hs ⊢; linarith)]
  simp only [bind, Except.bind, pure, Except.pure]
  rw [← hb, hr]
  rfl

/-- C75: outside of that the function raises: an `n_mean` that is negative or above the value of the search's upper end, singular values that are too small, an
empty or a non-square matrix. -/
theorem adjScaling_raises (lib : Lib) (hsvd : SvdContract lib.svd) (hroot : RootContract lib.rootScalar) (n : ℕ) (A : CArr) (nMean : ℝ) :
    (n = 0 → adjScaling lib n A nMean = .error .indexError) ∧
    (0 < n → (lib.svd n A).2.1 0 ≤ 1e-7 → adjScaling lib n A nMean = .error .valueError) ∧
    (0 < n → 1e-7 < (lib.svd n A).2.1 0 → nMean < 0 → adjScaling lib n A nMean = .error .valueError) ∧
    (0 < n → 1e-7 < (lib.svd n A).2.1 0 → meanPhotonNumber n (1 / (1e-10 + (lib.svd n A).2.1 0)) (lib.svd n A).2.1 < nMean →
      adjScaling lib n A nMean = .error .valueError) := by
  obtain ⟨-, -, hnn, hdesc, -⟩ := hsvd n A
  set ls := (lib.svd n A).2.1 with hls
  refine ⟨?_, ?_, ?_, ?_⟩
  · intro h
    unfold adjScaling
    rw [if_pos h]; rfl
  · intro h h1
    unfold adjScaling
    simp only [← hls]
    rw [if_neg h.ne', if_pos (by norm_num at h1 ⊢; linarith)]; rfl
  all_goals
    intro hn hs hlt
    have hs0 : 0 < ls 0 := by norm_num at hs ⊢; linarith
    set b : ℝ := 1 / (1e-10 + ls 0) with hb
    have hb0 : 0 < b := by rw [hb]; positivity
    have hbl : ∀ i < n, b * ls i < 1 := by
      intro i hi
      have h1 := hdesc 0 i (Nat.zero_le _) hi
      rw [hb, one_div, inv_mul_lt_iff₀ (by positivity)]
      norm_num; linarith
    have hf0 : meanPhotonNumber n 0 ls = 0 := by rw [meanPhotonNumber_eq]; simp
    have hfb : 0 ≤ meanPhotonNumber n b ls := by
      have := meanPhotonNumber_mono n ls hnn 0 b le_rfl hb0 hbl 0 hn hs0
      linarith
    have hr := (hroot (fun x => meanPhotonNumber n x ls - nMean) 0 b hb0.le).1 (by
      simp only [hf0]
      first
        | exact mul_pos (by linarith) (by linarith)
        | exact mul_pos_of_neg_of_neg (by linarith) (by linarith))
    unfold adjScaling
    simp only [← hls]
    rw [if_neg hn.ne', if_neg (by norm_num at hs ⊢; linarith)]
    simp only [bind, Except.bind, pure, Except.pure]
    rw [← hb, hr]


/-- C75: for every symmetric complex matrix `A` whose largest singular value exceeds `1e-7` and every admissible mean photon number, `adj_scaling` returns the one
non-negative scaling `x` (below `1/s_max`) and `adj_to_qmat` returns the `Q` matrix of a pure physical Gaussian state, for every `ħ`, whose `A` matrix is
`conj(x A) ⊕ x A` and whose total mean photon number is the one asked for. -/
theorem adjToQmat_correct (lib : Lib) (hsvd : SvdContract lib.svd) (hroot : RootContract lib.rootScalar) (n : ℕ) (hn : 0 < n) (A : CArr)
    (hA : ∀ i < n, ∀ j < n, A i j = A j i) (nMean : ℝ) (hs : 1e-7 < (lib.svd n A).2.1 0) (h0 : 0 ≤ nMean)
    (hmax : nMean ≤ 499 ∨ nMean ≤ reach ((lib.svd n A).2.1 0)) :
    ∃ x Q, adjScaling lib n A nMean = .ok x ∧ adjToQmat lib n n A nMean = .ok Q ∧ 0 ≤ x ∧ x * (lib.svd n A).2.1 0 < 1 ∧ IsHusimi n Q ∧
      (∀ hbar : ℝ, 0 < hbar → Physical (phase n n (Covmat n Q hbar)) hbar ∧ ((2 / hbar) • phase n n (Covmat n Q hbar)).det = 1 ∧
        (∃ Am, Amat n (Covmat n Q hbar) hbar = .ok Am ∧ ∀ i < n, ∀ j < n, Am i j = (starRingEnd ℂ) (x * A i j) ∧ Am (n + i) (n + j) = x * A i j ∧
          Am i (n + j) = 0 ∧ Am (n + i) j = 0) ∧
        ∃ v : List ℝ, photonNumberMeanVector { len := 2 * n, mu := fun _ => 0, cov := Covmat n Q hbar } hbar = .ok v ∧ v.sum = nMean) ∧
      ∀ y, 0 ≤ y → y * (lib.svd n A).2.1 0 < 1 → Adj.meanPhotonNumber n y (lib.svd n A).2.1 = nMean → y = x := by
  obtain ⟨x, hx, hx0, hx1, hxm⟩ := adjScaling_spec lib hsvd hroot n hn A nMean hs h0 (hmax.elim (fun h => h.trans (reach_bound _ hs)) id)
  have hnn := (hsvd n A).2.2.1
  have hdesc := (hsvd n A).2.2.2.1
  have hsq : ∀ i < n, (x * (lib.svd n A).2.1 i) ^ 2 < 1 := fun i hi => by
    have h1 := hx1 i hi
    have h2 := mul_nonneg hx0 (hnn i hi)
    nlinarith
  obtain ⟨hP, htr⟩ := scaled_gram lib.svd hsvd n A x hsq
  have hM : (toMatrix n n fun i j => (x : ℂ) * A i j)ᵀ = toMatrix n n fun i j => (x : ℂ) * A i j := by
    ext i j
    simp only [transpose_apply, toMatrix, of_apply]
    rw [hA j j.2 i i.2]
  obtain ⟨Q, hQ, hQp⟩ := graph_npInv (fun i j => (x : ℂ) * A i j) hM hP
  refine ⟨x, Q, hx, ?_, hx0, hx1 0 hn, graph_husimi _ hM Q hQp, ?_, ?_⟩
  · unfold adjToQmat
    simp only [ne_eq, not_true_eq_false, if_false, bind, Except.bind, pure, Except.pure, hx]
    exact hQ
  · intro hbar hh
    refine ⟨graph_physical _ hM hP Q hQp hbar hh, graph_pure _ hM hP Q hQp hbar hh, ?_, ?_⟩
    · obtain ⟨Am, h1, h2⟩ := graph_Amat _ hM hP Q hQp hbar hh
      refine ⟨Am, h1, fun i hi j hj => ⟨?_, ?_, ?_, ?_⟩⟩
      · have := congrFun (congrFun h2 (Sum.inl ⟨i, hi⟩)) (Sum.inl ⟨j, hj⟩)
        simp only [phase, of_apply, quad, Sum.elim_inl, fromBlocks_apply₁₁, conjTranspose_apply, toMatrix] at this
        rw [this, hA j hj i hi]; rfl
      · exact congrFun (congrFun h2 (Sum.inr ⟨i, hi⟩)) (Sum.inr ⟨j, hj⟩)
      · exact congrFun (congrFun h2 (Sum.inl ⟨i, hi⟩)) (Sum.inr ⟨j, hj⟩)
      · exact congrFun (congrFun h2 (Sum.inr ⟨i, hi⟩)) (Sum.inl ⟨j, hj⟩)
    · obtain ⟨v, h1, h2⟩ := graph_mean _ hP Q hQp hbar hh
      exact ⟨v, h1, by rw [h2, htr, hxm]⟩
  · intro y hy0 hy1 hym
    have hs0 : 0 < (lib.svd n A).2.1 0 := by norm_num at hs ⊢; linarith
    rcases lt_trichotomy y x with h | h | h
    · have := meanPhotonNumber_mono n _ hnn y x hy0 h hx1 0 hn hs0
      linarith
    · exact h
    · have := meanPhotonNumber_mono n _ hnn x y hx0 h (fun i hi => lt_of_le_of_lt (mul_le_mul_of_nonneg_left (hdesc 0 i (Nat.zero_le _) hi) hy0) hy1) 0 hn hs0
      linarith

theorem adjToQmat_nonsquare (lib : Lib) (n m : ℕ) (h : n ≠ m) (A : CArr) (nMean : ℝ) : adjToQmat lib n m A nMean = .error .valueError := by
  unfold adjToQmat; rw [if_pos h]; rfl

theorem adjToQmat_raises (lib : Lib) (n : ℕ) (A : CArr) (nMean : ℝ) (e : PyErr) (h : adjScaling lib n A nMean = .error e) :
    adjToQmat lib n n A nMean = .error e := by
  unfold adjToQmat
  simp only [ne_eq, not_true_eq_false, if_false, bind, Except.bind, pure, Except.pure, h]

/-- The routines exist. -/
theorem adjLib_exists : ∃ lib : Lib, SvdContract lib.svd ∧ EighContract lib.eigh ∧ RootContract lib.rootScalar := by
  obtain ⟨svd, h1⟩ := svd_exists
  obtain ⟨eigh, h2⟩ := eigh_exists
  obtain ⟨root, h3⟩ := root_exists
  exact ⟨⟨svd, eigh, root⟩, h1, h2, h3⟩

theorem unitary_row (n : ℕ) (u : Matrix (Fin n) (Fin n) ℂ) (hu : u ∈ unitaryGroup (Fin n) ℂ) (i : Fin n) : ∑ k, ‖u i k‖ ^ 2 = 1 := by
  have h : u * uᴴ = 1 := (Matrix.mem_unitaryGroup_iff).mp hu
  have h2 := congrFun (congrFun h i) i
  simp only [Matrix.mul_apply, conjTranspose_apply, one_apply_eq] at h2
  have h3 := congrArg Complex.re h2
  rw [Complex.re_sum, Complex.one_re] at h3
  rw [← h3]
  refine Finset.sum_congr rfl fun k _ => ?_
  rw [show star (u i k) = (starRingEnd ℂ) (u i k) from rfl, Complex.mul_conj, Complex.ofReal_re, Complex.normSq_eq_norm_sq]

/-- every entry of a matrix is bounded by its largest singular value: the condition of C75 holds as soon as one entry exceeds `1e-7` -/
theorem entry_le_singular (svd : ℕ → CArr → CArr × (ℕ → ℝ) × CArr) (hsvd : SvdContract svd) (n : ℕ) (A : CArr) (i j : ℕ) (hi : i < n) (hj : j < n) :
    ‖A i j‖ ≤ (svd n A).2.1 0 := by
  obtain ⟨hu, hv, hnn, hdesc, he⟩ := hsvd n A
  set u := toMatrix n n (svd n A).1
  set v := toMatrix n n (svd n A).2.2
  have hvt : vᵀ ∈ unitaryGroup (Fin n) ℂ := by
    rw [Matrix.mem_unitaryGroup_iff]
    have := congrArg transpose ((Matrix.mem_unitaryGroup_iff').mp hv)
    rw [transpose_mul, transpose_one] at this
    convert this using 2; rfl
  have h1 := congrFun (congrFun he ⟨i, hi⟩) ⟨j, hj⟩
  have h2 : A i j = ∑ k : Fin n, u ⟨i, hi⟩ k * ((svd n A).2.1 k : ℂ) * v k ⟨j, hj⟩ := by
    have : toMatrix n n A ⟨i, hi⟩ ⟨j, hj⟩ = A i j := rfl
    rw [← this, ← h1, Matrix.mul_apply]
    exact Finset.sum_congr rfl fun k _ => by rw [mul_diagonal]
  have hc : ∑ k : Fin n, ‖u ⟨i, hi⟩ k‖ * ‖v k ⟨j, hj⟩‖ ≤ 1 := by
    have ha := unitary_row n u hu ⟨i, hi⟩
    have hb := unitary_row n vᵀ hvt ⟨j, hj⟩
    calc ∑ k : Fin n, ‖u ⟨i, hi⟩ k‖ * ‖v k ⟨j, hj⟩‖ ≤ ∑ k : Fin n, (‖u ⟨i, hi⟩ k‖ ^ 2 + ‖vᵀ ⟨j, hj⟩ k‖ ^ 2) / 2 :=
          Finset.sum_le_sum fun k _ => by
            rw [transpose_apply]; nlinarith [sq_nonneg (‖u ⟨i, hi⟩ k‖ - ‖v k ⟨j, hj⟩‖)]
      _ = 1 := by rw [← Finset.sum_div, Finset.sum_add_distrib, ha, hb]; norm_num
  have h0 := hnn 0 (by omega)
  calc ‖A i j‖ ≤ ∑ k : Fin n, ‖u ⟨i, hi⟩ k * ((svd n A).2.1 k : ℂ) * v k ⟨j, hj⟩‖ := h2 ▸ norm_sum_le _ _
    _ ≤ ∑ k : Fin n, (svd n A).2.1 0 * (‖u ⟨i, hi⟩ k‖ * ‖v k ⟨j, hj⟩‖) := Finset.sum_le_sum fun k _ => by
        rw [norm_mul, norm_mul, Complex.norm_real, Real.norm_of_nonneg (hnn k k.2)]
        have := hdesc 0 k (Nat.zero_le _) k.2
        have h3 : 0 ≤ ‖u ⟨i, hi⟩ k‖ * ‖v k ⟨j, hj⟩‖ := by positivity
        nlinarith
    _ ≤ (svd n A).2.1 0 := by rw [← Finset.mul_sum]; nlinarith

/-- A concrete case: the graph with two vertices and one edge, at mean photon number 3. -/
example : ∃ (lib : Lib) (x : ℝ) (Q : CArr), adjToQmat lib 2 2 (fun i j => if i = j then 0 else 1) 3 = .ok Q ∧ 0 ≤ x ∧
    Physical (phase 2 2 (Covmat 2 Q 2)) 2 ∧ ∃ v : List ℝ, photonNumberMeanVector { len := 4, mu := fun _ => 0, cov := Covmat 2 Q 2 } 2 = .ok v ∧ v.sum = 3 := by
  obtain ⟨lib, h1, -, h3⟩ := adjLib_exists
  have hs := entry_le_singular lib.svd h1 2 (fun i j => if i = j then 0 else 1) 0 1 (by norm_num) (by norm_num)
  obtain ⟨x, Q, -, hQ, hx, -, -, hst, -⟩ := adjToQmat_correct lib h1 h3 2 (by norm_num) (fun i j => if i = j then 0 else 1)
    (fun i _ j _ => by simp [eq_comm]) 3 (by norm_num at hs ⊢; linarith) (by norm_num) (Or.inl (by norm_num))
  obtain ⟨hp, -, -, hv⟩ := hst 2 (by norm_num)
  exact ⟨lib, x, Q, hQ, hx, hp, hv⟩

end Verif.Props
