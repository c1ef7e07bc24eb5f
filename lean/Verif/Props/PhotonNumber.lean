/-
C51: photon-number means, variances and covariances are the moments of the number operators, and the functions computing them agree.
-/
import Verif.Props.Expectation

set_option linter.unusedSectionVars false
set_option linter.unusedSimpArgs false

namespace Verif.Props
open Verif.Model Verif.Model.Symp Verif.Model.Conv Verif.Model.Means Verif.Spec Verif.Lemmas Verif.Lemmas.Symp Matrix

theorem div_real_mk (a b c : ℝ) : (⟨a, b⟩ : ℂ) / (c : ℝ) = ⟨a * c⁻¹, b * c⁻¹⟩ := by
  apply Complex.ext
  · rw [Complex.div_ofReal_re]; rfl
  · rw [Complex.div_ofReal_im]; rfl

theorem moment_two (N : ℕ) (mu : ℕ → ℝ) (cov : ℕ → ℕ → ℝ) (hbar s : ℝ) (a b : ℕ) :
    moment N mu cov hbar s [a, b] = ladderMean N mu hbar a * ladderMean N mu hbar b + ladderCov N cov hbar s a b := by
  rw [moment_lh]; simp [lh_cons, eSum_cons, lh, lhN]

theorem moment_four (N : ℕ) (mu : ℕ → ℝ) (cov : ℕ → ℕ → ℝ) (hbar s : ℝ) (a b c d : ℕ) :
    moment N mu cov hbar s [a, b, c, d]
      = (let D := ladderMean N mu hbar
         let A := ladderCov N cov hbar s
         (D a * D c + A a c) * (D b * D d + A b d) + (A a b * D c * D d + A c d * D a * D b + A a d * D b * D c + A b c * D a * D d
          + A a b * A c d + A a d * A b c)) := by
  rw [moment_lh]; simp [lh_cons, eSum_cons, lh, lhN]; ring

/-- the mean photon number of mode `j` -/
theorem number_mean (N : ℕ) (mu : ℕ → ℝ) (cov : ℕ → ℕ → ℝ) (hbar : ℝ) (hh : 0 < hbar) (hsym : ∀ i < 2 * N, ∀ j < 2 * N, cov i j = cov j i) (j : ℕ)
    (hj : j < N) :
    moment N mu cov hbar 1 [j, N + j] = (((mu j ^ 2 + mu (j + N) ^ 2 + cov j j + cov (j + N) (j + N) - hbar) / (2 * hbar) : ℝ) : ℂ) := by
  rw [moment_two]
  unfold ladderMean ladderCov covNumber kd
  have hc : (Real.sqrt (2 * hbar))⁻¹ * (Real.sqrt (2 * hbar))⁻¹ = (2 * hbar)⁻¹ := by
    rw [← mul_inv, Real.mul_self_sqrt (by positivity)]
  have hn : ¬ (N + j < N) := by omega
  simp only [hj, hn, if_true, if_false, Nat.add_sub_cancel_left, div_real_mk, add_comm j N]
  have hh' : hbar ≠ 0 := hh.ne'
  apply Complex.ext
  · simp only [Complex.add_re, Complex.mul_re, Complex.sub_re, Complex.ofReal_re, Complex.ofReal_im, mul_one, zero_mul, sub_zero,
      Complex.one_re, Complex.one_im, mul_zero]
    generalize (Real.sqrt (2 * hbar))⁻¹ = u at *
    have : mu j * u * (mu j * u) - -mu (N + j) * u * (mu (N + j) * u) = (mu j ^ 2 + mu (N + j) ^ 2) * (u * u) := by ring
    rw [this, hc]; field_simp
    ring
  · simp only [Complex.add_im, Complex.mul_im, Complex.sub_im, Complex.ofReal_re, Complex.ofReal_im, mul_one, zero_mul, sub_zero,
      Complex.one_re, Complex.one_im, mul_zero]
    ring

/-- C51: `photon_number_mean` is the expectation value of `a†_j a_j`. -/
theorem photonNumberMean_correct (N : ℕ) (st : GState ℝ) (hs : st.len = 2 * N) (hsym : ∀ i < 2 * N, ∀ j < 2 * N, st.cov i j = st.cov j i) (hbar : ℝ)
    (hh : 0 < hbar) (j : ℕ) (hj : j < N) :
    ∃ v : ℝ, photonNumberMean st j hbar = .ok v ∧ (v : ℂ) = numberMean N st.mu st.cov hbar j := by
  refine ⟨_, ?_, (number_mean N st.mu st.cov hbar hh hsym j hj).symm⟩
  unfold photonNumberMean
  rw [if_neg (by omega), show st.len / 2 = N by omega]

/-- a mode number beyond the last mode is refused -/
theorem photonNumberMean_raises (N : ℕ) (st : GState ℝ) (hs : st.len = 2 * N) (hbar : ℝ) (j : ℕ) (hj : N ≤ j) :
    photonNumberMean st j hbar = .error .indexError := by
  unfold photonNumberMean
  rw [if_pos (by omega)]

/-- covariance of the photon numbers of two modes -/
theorem number_covar (N : ℕ) (mu : ℕ → ℝ) (cov : ℕ → ℕ → ℝ) (hbar : ℝ) (hh : 0 < hbar) (hsym : ∀ i < 2 * N, ∀ j < 2 * N, cov i j = cov j i)
    (j k : ℕ) (hj : j < N) (hk : k < N) (hjk : j ≠ k) :
    moment N mu cov hbar 1 [j, k, N + j, N + k] - moment N mu cov hbar 1 [j, N + j] * moment N mu cov hbar 1 [k, N + k]
      = (((cov j k ^ 2 + cov j (N + k) ^ 2 + cov (N + j) k ^ 2 + cov (N + j) (N + k) ^ 2
          + 2 * (cov j k * mu j * mu k + cov (N + j) k * mu k * mu (N + j) + cov j (N + k) * mu j * mu (N + k)
            + cov (N + j) (N + k) * mu (N + j) * mu (N + k))) / (2 * hbar ^ 2) : ℝ) : ℂ) := by
  rw [moment_four, moment_two, moment_two]
  simp only []
  rw [add_sub_cancel_left]
  unfold ladderMean ladderCov covNumber covPair kd
  have hc : (Real.sqrt (2 * hbar))⁻¹ * (Real.sqrt (2 * hbar))⁻¹ = (2 * hbar)⁻¹ := by
    rw [← mul_inv, Real.mul_self_sqrt (by positivity)]
  have hn : ∀ x, ¬ (N + x < N) := by intro x; omega
  simp only [hj, hk, hn, hjk, hjk.symm, if_true, if_false, Nat.add_sub_cancel_left, div_real_mk, mul_zero, sub_zero]
  rw [hsym k (by omega) j (by omega), hsym (N + k) (by omega) (N + j) (by omega), hsym k (by omega) (N + j) (by omega)]
  have hh' : hbar ≠ 0 := hh.ne'
  have e : (2 * hbar ^ 2)⁻¹ = 2 * ((2 * hbar)⁻¹ * (2 * hbar)⁻¹) := by field_simp
  rw [div_eq_mul_inv, e, ← hc]
  generalize (Real.sqrt (2 * hbar))⁻¹ = u at *
  apply Complex.ext
  · simp only [Complex.add_re, Complex.mul_re, Complex.add_im, Complex.mul_im, Complex.ofReal_re, Complex.conj_re, Complex.conj_im]
    ring
  · simp only [Complex.add_re, Complex.mul_re, Complex.add_im, Complex.mul_im, Complex.ofReal_im, Complex.conj_re, Complex.conj_im]
    ring

/-- variance of the photon number of a mode: `⟨n²⟩ = ⟨a†a†aa⟩ + ⟨a†a⟩` -/
theorem number_var (N : ℕ) (mu : ℕ → ℝ) (cov : ℕ → ℕ → ℝ) (hbar : ℝ) (hh : 0 < hbar) (hsym : ∀ i < 2 * N, ∀ j < 2 * N, cov i j = cov j i)
    (j : ℕ) (hj : j < N) :
    moment N mu cov hbar 1 [j, j, N + j, N + j] + moment N mu cov hbar 1 [j, N + j] - moment N mu cov hbar 1 [j, N + j] ^ 2
      = (((1 / 2 * (cov j j + cov (N + j) (N + j)) ^ 2 - (cov j j * cov (N + j) (N + j) - cov j (N + j) * cov (N + j) j)
          + (mu j ^ 2 * cov j j + 2 * (mu j * mu (N + j) * cov j (N + j)) + mu (N + j) ^ 2 * cov (N + j) (N + j))) / hbar ^ 2 - 1 / 4 : ℝ) : ℂ) := by
  rw [moment_four]
  simp only [moment_two]
  have alg : ∀ x y z : ℂ, x * x + y + x - x ^ 2 = y + x := by intro x y z; ring
  rw [alg _ _ 0]
  unfold ladderMean ladderCov covNumber covPair kd
  have hc : (Real.sqrt (2 * hbar))⁻¹ * (Real.sqrt (2 * hbar))⁻¹ = (2 * hbar)⁻¹ := by
    rw [← mul_inv, Real.mul_self_sqrt (by positivity)]
  have hn : ∀ x, ¬ (N + x < N) := by intro x; omega
  simp only [hj, hn, if_true, if_false, Nat.add_sub_cancel_left, div_real_mk, mul_zero, sub_zero, mul_one]
  rw [hsym (N + j) (by omega) j (by omega)]
  have hh' : hbar ≠ 0 := hh.ne'
  have e : (hbar ^ 2)⁻¹ = 4 * ((2 * hbar)⁻¹ * (2 * hbar)⁻¹) := by field_simp; norm_num
  rw [div_eq_mul_inv _ (hbar ^ 2), e, ← hc]
  have hu : (Real.sqrt (2 * hbar))⁻¹ * (Real.sqrt (2 * hbar))⁻¹ * hbar = 1 / 2 := by rw [hc]; field_simp
  generalize (Real.sqrt (2 * hbar))⁻¹ = u at *
  apply Complex.ext
  · simp only [Complex.add_re, Complex.mul_re, Complex.add_im, Complex.mul_im, Complex.ofReal_re, Complex.ofReal_im, Complex.conj_re, Complex.conj_im,
      Complex.sub_re, Complex.sub_im]
    ring
  · simp only [Complex.add_re, Complex.mul_re, Complex.add_im, Complex.mul_im, Complex.ofReal_re, Complex.ofReal_im, Complex.conj_re, Complex.conj_im,
      Complex.sub_re, Complex.sub_im]
    ring

theorem det_two (M : ℕ → ℕ → ℝ) : (toMatrix 2 2 M).det = M 0 0 * M 1 1 - M 0 1 * M 1 0 := by
  rw [Matrix.det_fin_two]; rfl

/-- C51: `photon_number_covar` is `⟨n_j n_k⟩ - ⟨n_j⟩⟨n_k⟩`. -/
theorem photonNumberCovar_correct (N : ℕ) (st : GState ℝ) (hs : st.len = 2 * N) (hsym : ∀ i < 2 * N, ∀ j < 2 * N, st.cov i j = st.cov j i) (hbar : ℝ)
    (hh : 0 < hbar) (j k : ℕ) (hj : j < N) (hk : k < N) :
    ∃ v : ℝ, photonNumberCovar st j k hbar = .ok v
      ∧ (v : ℂ) = numberCorr N st.mu st.cov hbar j k - numberMean N st.mu st.cov hbar j * numberMean N st.mu st.cov hbar k := by
  unfold numberCorr numberMean photonNumberCovar
  by_cases hjk : j = k
  · subst hjk
    simp only [if_true]
    obtain ⟨r, hr, hR⟩ := reducedGaussian_partial N st hs [j] (by simp) (by simpa using hj) (by
      by_cases h1 : N = 1
      · right; subst h1; rw [show j = 0 by omega]; rfl
      · left; simp; omega)
    refine ⟨_, by rw [hr]; rfl, ?_⟩
    rw [← sq, number_var N st.mu st.cov hbar hh hsym j hj]
    have hl : r.len = 2 := hR.len
    have m0 := (hR.mean 0 (by simp)).1
    have m1 := (hR.mean 0 (by simp)).2
    have c00 := hR.xx 0 (by simp) 0 (by simp)
    have c01 := hR.xp 0 (by simp) 0 (by simp)
    have c10 := hR.px 0 (by simp) 0 (by simp)
    have c11 := hR.pp 0 (by simp) 0 (by simp)
    simp only [List.length_cons, List.length_nil, zero_add, add_zero, List.getD_cons_zero] at m0 m1 c00 c01 c10 c11
    congr 1
    rw [hl, det_two]
    simp only [dot, List.range_succ, List.range_zero, List.nil_append, List.map_append, List.map_cons, List.map_nil, List.sum_append, List.sum_cons,
      List.sum_nil, List.cons_append, List.foldl_cons, List.foldl_nil, m0, m1, c00, c01, c10, c11]
    rw [hsym (N + j) (by omega) j (by omega)]
    ring
  · simp only [hjk, if_false]
    rw [number_covar N st.mu st.cov hbar hh hsym j k hj hk hjk]
    by_cases hc : N = 2 ∧ j = 1
    · obtain ⟨rfl, rfl⟩ := hc
      have : k = 0 := by omega
      subst this
      have hr : reducedGaussian st [1, 0] = .ok st := by
        unfold reducedGaussian; simp [hs]
      refine ⟨_, by rw [hr]; rfl, ?_⟩
      congr 1
      simp only [Nat.reduceAdd]
      rw [hsym 1 (by omega) 0 (by omega), hsym 3 (by omega) 0 (by omega), hsym 1 (by omega) 2 (by omega), hsym 3 (by omega) 2 (by omega)]
      ring
    · obtain ⟨r, hr, hR⟩ := reducedGaussian_partial N st hs [j, k] (by simp) (by simp [hj, hk]) (by
        by_cases h1 : N = 2
        · right; subst h1
          have : j = 0 := by omega
          have : k = 1 := by omega
          subst j k; rfl
        · left; simp; omega)
      refine ⟨_, by rw [hr]; rfl, ?_⟩
      have m0 := (hR.mean 0 (by simp)).1
      have m1 := (hR.mean 1 (by simp)).1
      have m2 := (hR.mean 0 (by simp)).2
      have m3 := (hR.mean 1 (by simp)).2
      have c01 := hR.xx 0 (by simp) 1 (by simp)
      have c03 := hR.xp 0 (by simp) 1 (by simp)
      have c21 := hR.px 0 (by simp) 1 (by simp)
      have c23 := hR.pp 0 (by simp) 1 (by simp)
      simp only [List.length_cons, List.length_nil, zero_add, add_zero, List.getD_cons_zero, List.getD_cons_succ, Nat.reduceAdd]
        at m0 m1 m2 m3 c01 c03 c21 c23
      congr 1
      simp only [m0, m1, m2, m3, c01, c03, c21, c23]

theorem numberCorr_symm (N : ℕ) (mu : ℕ → ℝ) (cov : ℕ → ℕ → ℝ) (hbar : ℝ) (hh : 0 < hbar) (hsym : ∀ i < 2 * N, ∀ j < 2 * N, cov i j = cov j i)
    (j k : ℕ) (hj : j < N) (hk : k < N) : numberCorr N mu cov hbar j k = numberCorr N mu cov hbar k j := by
  unfold numberCorr
  by_cases hjk : j = k
  · subst hjk; rfl
  · rw [if_neg hjk, if_neg (Ne.symm hjk)]
    have h1 := number_covar N mu cov hbar hh hsym j k hj hk hjk
    have h2 := number_covar N mu cov hbar hh hsym k j hk hj (Ne.symm hjk)
    rw [hsym k (by omega) j (by omega), hsym (N + k) (by omega) (N + j) (by omega), hsym k (by omega) (N + j) (by omega),
      hsym (N + k) (by omega) j (by omega)] at h2
    rw [sub_eq_iff_eq_add] at h1 h2
    rw [h1, h2, mul_comm (moment _ _ _ _ _ [k, N + k])]
    congr 2
    ring

/-- C51: `photon_number_covar` is symmetric in the two modes. -/
theorem photonNumberCovar_symm (N : ℕ) (st : GState ℝ) (hs : st.len = 2 * N) (hsym : ∀ i < 2 * N, ∀ j < 2 * N, st.cov i j = st.cov j i) (hbar : ℝ)
    (hh : 0 < hbar) (j k : ℕ) (hj : j < N) (hk : k < N) : photonNumberCovar st j k hbar = photonNumberCovar st k j hbar := by
  obtain ⟨v, e, h⟩ := photonNumberCovar_correct N st hs hsym hbar hh j k hj hk
  obtain ⟨v', e', h'⟩ := photonNumberCovar_correct N st hs hsym hbar hh k j hk hj
  rw [e, e']
  rw [numberCorr_symm N _ _ _ hh hsym j k hj hk, mul_comm, ← h'] at h
  rw [Complex.ofReal_inj.mp h]

theorem mapM_ok {α β : Type} (f : α → Except PyErr β) (g : α → β) (l : List α) (h : ∀ a ∈ l, f a = .ok (g a)) :
    l.mapM f = .ok (l.map g) := by
  induction l with
  | nil => rfl
  | cons a l ih =>
    rw [List.mapM_cons, h a (by simp), ih fun b hb => h b (by simp [hb])]; rfl

/-- C51: `photon_number_mean_vector` lists the mean photon numbers of all modes. -/
theorem photonNumberMeanVector_correct (N : ℕ) (st : GState ℝ) (hs : st.len = 2 * N) (hsym : ∀ i < 2 * N, ∀ j < 2 * N, st.cov i j = st.cov j i)
    (hbar : ℝ) (hh : 0 < hbar) :
    ∃ v : List ℝ, photonNumberMeanVector st hbar = .ok v ∧ v.map (fun x : ℝ => (x : ℂ)) = (List.range N).map (numberMean N st.mu st.cov hbar) := by
  have h : ∀ j, ∃ v : ℝ, j < N → photonNumberMean st j hbar = .ok v ∧ (v : ℂ) = numberMean N st.mu st.cov hbar j := by
    intro j
    by_cases hj : j < N
    · obtain ⟨v, h⟩ := photonNumberMean_correct N st hs hsym hbar hh j hj
      exact ⟨v, fun _ => h⟩
    · exact ⟨0, fun h => absurd h hj⟩
  choose g hg using h
  refine ⟨(List.range N).map g, ?_, ?_⟩
  · unfold photonNumberMeanVector
    rw [show st.len / 2 = N by omega]
    exact mapM_ok _ _ _ fun j hj => (hg j (List.mem_range.mp hj)).1
  · rw [List.map_map]
    exact List.map_congr_left fun j hj => (hg j (List.mem_range.mp hj)).2

/-- C51: the mean vector sums to the total mean photon number, which is `(Tr V + |μ|²)/(2ħ) - N/2`. -/
theorem photonNumberMeanVector_sum (N : ℕ) (st : GState ℝ) (hs : st.len = 2 * N) (hbar : ℝ) (hh : 0 < hbar) :
    ∃ v : List ℝ, photonNumberMeanVector st hbar = .ok v
      ∧ v.sum = ((∑ i ∈ Finset.range (2 * N), st.cov i i) + ∑ i ∈ Finset.range (2 * N), st.mu i ^ 2) / (2 * hbar) - N / 2 := by
  refine ⟨(List.range N).map fun j => (st.mu j ^ 2 + st.mu (j + N) ^ 2 + st.cov j j + st.cov (j + N) (j + N) - hbar) / (2 * hbar), ?_, ?_⟩
  · unfold photonNumberMeanVector
    rw [show st.len / 2 = N by omega]
    apply mapM_ok
    intro j hj
    have := List.mem_range.mp hj
    unfold photonNumberMean
    rw [if_neg (by omega), show st.len / 2 = N by omega]
  · rw [← List.sum_toFinset _ List.nodup_range, List.toFinset_range]
    have e : ∀ f : ℕ → ℝ, ∑ i ∈ Finset.range (2 * N), f i = ∑ i ∈ Finset.range N, (f i + f (i + N)) := by
      intro f
      rw [two_mul, Finset.sum_range_add, Finset.sum_add_distrib]
      simp only [add_comm N]
    rw [e, e, ← Finset.sum_add_distrib, ← Finset.sum_div]
    have : ∑ j ∈ Finset.range N, (st.mu j ^ 2 + st.mu (j + N) ^ 2 + st.cov j j + st.cov (j + N) (j + N) - hbar)
        = ∑ j ∈ Finset.range N, (st.cov j j + st.cov (j + N) (j + N) + (st.mu j ^ 2 + st.mu (j + N) ^ 2)) - N * hbar := by
      rw [Finset.sum_sub_distrib, Finset.sum_const, Finset.card_range, nsmul_eq_mul]
      congr 1
      exact Finset.sum_congr rfl fun _ _ => by ring
    rw [this]
    field_simp

/-- C51: `symplectic.mean_photon_number` of a one-mode state returns `photon_number_mean` and `photon_number_covar` of its mode. -/
theorem meanPhotonNumber_correct (st : GState ℝ) (hs : st.len = 2) (hsym : ∀ i < 2, ∀ j < 2, st.cov i j = st.cov j i) (hbar : ℝ) (hh : 0 < hbar) :
    photonNumberMean st 0 hbar = .ok (meanPhotonNumber st hbar).1 ∧ photonNumberCovar st 0 0 hbar = .ok (meanPhotonNumber st hbar).2 := by
  have hh' := hh.ne'
  constructor
  · unfold photonNumberMean meanPhotonNumber
    simp only [hs, dot, List.range_succ, List.range_zero, List.nil_append, List.map_append, List.map_cons, List.map_nil, List.sum_append,
      List.sum_cons, List.sum_nil, List.cons_append, List.foldl_cons, List.foldl_nil]
    norm_num
    field_simp
    ring
  · have hr : reducedGaussian st [0] = .ok st := by
      unfold reducedGaussian; simp [hs]
    unfold photonNumberCovar meanPhotonNumber
    rw [if_pos rfl, hr]
    simp only [bind, Except.bind, pure, Except.pure]
    rw [hs, det_two]
    congr 1
    simp only [mmul, dot, List.range_succ, List.range_zero, List.nil_append, List.map_append, List.map_cons, List.map_nil, List.sum_append,
      List.sum_cons, List.sum_nil, List.cons_append, List.foldl_cons, List.foldl_nil]
    rw [hsym 1 (by omega) 0 (by omega)]
    field_simp
    ring

theorem upd2_apply {K : Type} (C : ℕ → ℕ → K) (i j : ℕ) (v : K) (a b : ℕ) : upd2 C i j v a b = if a = i ∧ b = j then v else C a b := by
  unfold upd2; split_ifs <;> first | rfl | simp_all

theorem covmat_inner (v : ℕ → ℕ → ℝ) (hv : ∀ a b, v a b = v b a) (f : ℕ → ℕ → Except PyErr ℝ) (i : ℕ) (J : ℕ) (hf : ∀ j < J, f i j = .ok (v i j)) (C : ℕ → ℕ → ℝ) :
    ∃ C' : ℕ → ℕ → ℝ, (List.range J).foldlM (fun (C : ℕ → ℕ → ℝ) (j : ℕ) => do
        let x ← f i j
        pure (upd2 (upd2 C i j x) j i x)) C = .ok C'
      ∧ ∀ a b, C' a b = if (a = i ∧ b < J) ∨ (b = i ∧ a < J) then v a b else C a b := by
  induction J with
  | zero => exact ⟨C, rfl, by intro a b; simp⟩
  | succ J ih =>
    obtain ⟨C', e, h⟩ := ih fun j hj => hf j (by omega)
    rw [List.range_succ, List.foldlM_append, e]
    refine ⟨upd2 (upd2 C' i J (v i J)) J i (v i J), ?_, ?_⟩
    · simp only [bind, Except.bind, List.foldlM_cons, List.foldlM_nil, hf J (by omega), pure, Except.pure]
    · intro a b
      rw [upd2_apply, upd2_apply, h]
      by_cases h1 : a = J ∧ b = i
      · rw [if_pos h1, if_pos (by omega), h1.1, h1.2, hv]
      · rw [if_neg h1]
        by_cases h2 : a = i ∧ b = J
        · rw [if_pos h2, if_pos (by omega), h2.1, h2.2]
        · rw [if_neg h2]
          have : ((a = i ∧ b < J) ∨ (b = i ∧ a < J)) ↔ ((a = i ∧ b < J + 1) ∨ (b = i ∧ a < J + 1)) := by omega
          simp only [this]

theorem covmat_outer (v : ℕ → ℕ → ℝ) (hv : ∀ a b, v a b = v b a) (f : ℕ → ℕ → Except PyErr ℝ) (N : ℕ) (hf : ∀ i < N, ∀ j < N, f i j = .ok (v i j)) :
    ∃ C' : ℕ → ℕ → ℝ, (List.range N).foldlM (fun (C : ℕ → ℕ → ℝ) (i : ℕ) => (List.range (i + 1)).foldlM (fun (C : ℕ → ℕ → ℝ) (j : ℕ) => do
        let x ← f i j
        pure (upd2 (upd2 C i j x) j i x)) C) (fun _ _ => (0 : ℝ)) = .ok C'
      ∧ ∀ a < N, ∀ b < N, C' a b = v a b := by
  induction N with
  | zero => exact ⟨_, rfl, by intro a ha; omega⟩
  | succ N ih =>
    obtain ⟨C', e, h⟩ := ih fun i hi j hj => hf i (by omega) j (by omega)
    obtain ⟨C'', e', h'⟩ := covmat_inner v hv f N (N + 1) (fun j hj => hf N (by omega) j hj) C'
    refine ⟨C'', ?_, ?_⟩
    · rw [List.range_succ, List.foldlM_append, e]
      simp only [bind, Except.bind, List.foldlM_cons, List.foldlM_nil] at e' ⊢
      rw [e']; rfl
    · intro a ha b hb
      rw [h']
      split_ifs with hc
      · rfl
      · exact h a (by omega) b (by omega)

/-- C51: `photon_number_covmat` is the symmetric matrix of the covariances `⟨n_j n_k⟩ - ⟨n_j⟩⟨n_k⟩`. -/
theorem photonNumberCovmat_correct (N : ℕ) (st : GState ℝ) (hs : st.len = 2 * N) (hsym : ∀ i < 2 * N, ∀ j < 2 * N, st.cov i j = st.cov j i) (hbar : ℝ)
    (hh : 0 < hbar) :
    ∃ C, photonNumberCovmat st hbar = .ok C ∧ (∀ j < N, ∀ k < N, C j k = C k j) ∧ ∀ j < N, ∀ k < N,
      (C j k : ℂ) = numberCorr N st.mu st.cov hbar j k - numberMean N st.mu st.cov hbar j * numberMean N st.mu st.cov hbar k := by
  have h : ∀ j k, ∃ v : ℝ, j < N → k < N → photonNumberCovar st j k hbar = .ok v
      ∧ (v : ℂ) = numberCorr N st.mu st.cov hbar j k - numberMean N st.mu st.cov hbar j * numberMean N st.mu st.cov hbar k := by
    intro j k
    by_cases hj : j < N
    · by_cases hk : k < N
      · obtain ⟨v, h⟩ := photonNumberCovar_correct N st hs hsym hbar hh j k hj hk
        exact ⟨v, fun _ _ => h⟩
      · exact ⟨0, fun _ h => absurd h hk⟩
    · exact ⟨0, fun h => absurd h hj⟩
  choose g hg using h
  have hgs : ∀ j < N, ∀ k < N, g j k = g k j := by
    intro j hj k hk
    have := photonNumberCovar_symm N st hs hsym hbar hh j k hj hk
    rw [(hg j k hj hk).1, (hg k j hk hj).1] at this
    exact Except.ok.inj this
  obtain ⟨C, e, hC⟩ := covmat_outer (fun j k => if j < N ∧ k < N then g j k else 0)
    (fun a b => by
      by_cases hab : a < N ∧ b < N
      · rw [if_pos hab, if_pos hab.symm]; exact hgs a hab.1 b hab.2
      · rw [if_neg hab, if_neg (fun h => hab h.symm)])
    (fun i j => photonNumberCovar st i j hbar) N
    (fun i hi j hj => by rw [if_pos ⟨hi, hj⟩]; exact (hg i j hi hj).1)
  have hC' : ∀ j < N, ∀ k < N, C j k = g j k := fun j hj k hk => by rw [hC j hj k hk, if_pos ⟨hj, hk⟩]
  refine ⟨C, ?_, ?_, ?_⟩
  · unfold photonNumberCovmat
    rw [show st.len / 2 = N by omega]
    exact e
  · intro j hj k hk; rw [hC' j hj k hk, hC' k hk j hj, hgs j hj k hk]
  · intro j hj k hk; rw [hC' j hj k hk]; exact (hg j k hj hk).2

/-- C51: the vacuum has no photons and no photon-number fluctuations. -/
theorem photonNumber_vacuum (N : ℕ) (hbar : ℝ) (hh : 0 < hbar) (j k : ℕ) (hj : j < N) (hk : k < N) :
    photonNumberMean (vacuumState N hbar) j hbar = .ok 0 ∧ photonNumberCovar (vacuumState N hbar) j k hbar = .ok 0 := by
  have hh' := hh.ne'
  have hsym : ∀ i < 2 * N, ∀ j < 2 * N, (vacuumState N hbar).cov i j = (vacuumState N hbar).cov j i := by
    intro i _ j _; simp only [vacuumState, eye, eq_comm]
  constructor
  · unfold photonNumberMean
    rw [if_neg (by simp only [vacuumState]; omega)]
    simp only [vacuumState, eye, if_true]
    congr 1
    field_simp
    ring
  · obtain ⟨v, e, h⟩ := photonNumberCovar_correct N (vacuumState N hbar) rfl hsym hbar hh j k hj hk
    rw [e]
    congr 1
    apply Complex.ofReal_inj.mp
    rw [h]
    unfold numberCorr numberMean
    by_cases hjk : j = k
    · subst hjk
      rw [if_pos rfl, ← sq, number_var N _ _ hbar hh hsym j hj]
      congr 1
      simp only [vacuumState, eye, if_true]
      rw [if_neg (by omega), if_neg (by omega)]
      field_simp
      ring
    · rw [if_neg hjk, number_covar N _ _ hbar hh hsym j k hj hk hjk]
      congr 1
      simp only [vacuumState, eye]
      rw [if_neg hjk, if_neg (by omega), if_neg (by omega), if_neg (by omega)]
      simp

/-- a concrete state with photons: the hypotheses of the theorems above hold and the mean is not zero -/
example : photonNumberMean { len := 4, mu := fun _ => 1, cov := fun i j => if i = j then 3 else 1 } 1 2 = .ok (3 / 2) := by
  unfold photonNumberMean; norm_num

end Verif.Props
