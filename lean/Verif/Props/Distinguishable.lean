/-
C87: distinguishable squeezers (thewalrus/quantum/distinguishable_squeezers.py).
-/
import Verif.Props.TotalPhotons
import Verif.Props.PhotonNumber
import Verif.Model.Distinguishable

set_option linter.style.longLine false
set_option linter.unusedVariables false

namespace Verif.Props
open Verif.Model Verif.Model.Symp Verif.Model.Conv Verif.Model.Dist Verif.Spec Verif.Lemmas Verif.Lemmas.Symp Verif.Lemmas.Heis Verif.Lemmas.FPar Verif.Lemmas.FockS Verif.Lemmas.Tot Matrix
open scoped ComplexOrder

variable {N : ℕ} {hbar : ℝ}

/-- **C87** the joint generating function of the photon numbers of a Gaussian state: with `D = diag(√(1-x), √(1-x))` and `W = D V D + (ħ/2) diag(1+x, 1+x)`,
`Σ_n Π_k x_k^{n_k} ⟨n|ρ|n⟩ = exp(-(Dμ)ᵀ W⁻¹ (Dμ) / 2) / √det(W/ħ)`. -/
theorem joint_gf (hh : 0 < hbar) (mu : ℕ → ℝ) (cov : ℕ → ℕ → ℝ) (hph : Physical (phase N N cov) hbar) (ρ : (Fin N → ℕ) → (Fin N → ℕ) → ℂ) (hρ : IsFockMatrix N mu cov hbar ρ) (x : Fin N → ℝ) (h0 : ∀ k, 0 ≤ x k) (h1 : ∀ k, x k ≤ 1)
    (D W : Matrix (Fin N ⊕ Fin N) (Fin N ⊕ Fin N) ℝ) (hD : D = diagonal (Sum.elim (fun k => Real.sqrt (1 - x k)) fun k => Real.sqrt (1 - x k)))
    (hW : W = D * phase N N cov * D + (hbar / 2) • diagonal (Sum.elim (fun k => 1 + x k) fun k => 1 + x k)) :
    HasSum (fun n : Fin N → ℕ => (∏ k, x k ^ n k) * (ρ n n).re) (Real.exp (-((D *ᵥ phaseVec N mu) ⬝ᵥ W⁻¹ *ᵥ (D *ᵥ phaseVec N mu)) / 2) / Real.sqrt ((1 / hbar) • W).det) ∧ 0 < ((1 / hbar) • W).det := by
  have hDl : lossD (fun k : Fin N => 1 - x k) = D := by rw [lossD, hD]
  obtain ⟨mu', hmu'⟩ := exists_phaseVec (N := N) (D *ᵥ phaseVec N mu)
  obtain ⟨cov', hcov'⟩ := exists_cov (N := N) (D * phase N N cov * D + (hbar / 2) • (1 - D * D))
  obtain ⟨hp', hs⟩ := lossy_induction hh mu cov hph ρ hρ Finset.univ (fun k => 1 - x k) (fun k => by linarith [h1 k]) (fun k => by linarith [h0 k]) (fun k hk => absurd (Finset.mem_univ k) hk) mu' cov' (hDl ▸ hmu') (hDl ▸ hcov')
  obtain ⟨ρ', _, _, -, hρ', -⟩ := fock_gram mu' hh hp'
  have h := hs ρ' hρ' 0
  have hsq : ∀ k, Real.sqrt (1 - x k) * Real.sqrt (1 - x k) = 1 - x k := fun k => Real.mul_self_sqrt (by linarith [h1 k])
  have hDD : (1 : Matrix (Fin N ⊕ Fin N) (Fin N ⊕ Fin N) ℝ) - D * D + 1 = diagonal (Sum.elim (fun k => 1 + x k) fun k => 1 + x k) := by
    rw [hD, diagonal_mul_diagonal]
    ext p q
    by_cases hpq : p = q
    · subst hpq
      rcases p with p | p <;> simp [hsq] <;> ring
    · simp [hpq, Matrix.one_apply]
  have hW' : phase N N cov' + (hbar / 2) • 1 = W := by
    rw [hcov', hW, ← hDD]
    module
  have hv := (fockMatrix_vacuum hh hp' hρ').1
  have hq : cohQuad hbar (0 : Fin N → ℂ) = 0 := by
    funext p; rcases p with p | p <;> simp [cohQuad]
  refine ⟨hs_eq h (fun n => ?_) ?_, ?_⟩
  · simp only [Pi.zero_apply, survive_zero, sub_sub_cancel]
  · rw [hv, Complex.ofReal_re, husimiFn]
    rw [hW', hq, hmu', zero_sub]
    congr 2
    simp only [Matrix.mulVec_neg, dotProduct_neg, neg_dotProduct, neg_neg]
  · rw [← hW']
    exact det_W_pos hp' hh

/-- The state of source `k` after the interferometer: squeezed vacuum with parameter `r` in mode `k`, vacuum in all the other modes, passed through the transmission matrix `T`. -/
def IsSource (N : ℕ) (T : ℕ → ℕ → ℂ) (r : ℝ) (hbar : ℝ) (k : Fin N) (st : GState ℝ) : Prop :=
  ∃ s0 : GState ℝ, s0.len = 2 * N ∧ (∀ i < 2 * N, s0.mu i = 0) ∧
    phase N N s0.cov = (hbar / 2) • diagonal (Sum.elim (fun i => if i = k then Real.exp (-2 * r) else 1) fun i => if i = k then Real.exp (2 * r) else 1) ∧
    passiveTransformation s0 N N T hbar = .ok st

theorem source_exists (T : ℕ → ℕ → ℂ) (r : ℝ) (hbar : ℝ) (k : Fin N) : ∃ st, IsSource N T r hbar k st := by
  obtain ⟨cov, hcov⟩ := exists_cov (N := N) ((hbar / 2) • diagonal (Sum.elim (fun i => if i = k then Real.exp (-2 * r) else 1) fun i => if i = k then Real.exp (2 * r) else 1))
  obtain ⟨st, hst, -⟩ := passive_phase ⟨2 * N, fun _ => 0, cov⟩ N N T hbar rfl
  exact ⟨st, ⟨2 * N, fun _ => 0, cov⟩, rfl, fun _ _ => rfl, hcov, hst⟩

/-- the state of a source before the interferometer is physical -/
theorem source_squeezed (hh : 0 < hbar) (cov : ℕ → ℕ → ℝ) (r : ℝ) (k : Fin N)
    (hcov : phase N N cov = (hbar / 2) • diagonal (Sum.elim (fun i => if i = k then Real.exp (-2 * r) else 1) fun i => if i = k then Real.exp (2 * r) else 1)) : Physical (phase N N cov) hbar := by
  have hD : fromBlocks (diagonal fun i : Fin N => if i = k then Real.exp (-r) else 1) 0 0 (diagonal fun i : Fin N => if i = k then Real.exp r else 1) ∈ symplecticGroup (Fin N) ℝ := by
    refine symp_diag _ _ ?_
    rw [diagonal_transpose, diagonal_mul_diagonal, ← diagonal_one]
    congr 1; funext i
    split_ifs
    · rw [← Real.exp_add]; simp
    · norm_num
  refine (symp_physical hh hD ?_).1
  rw [hcov, fromBlocks_diagonal, diagonal_transpose, diagonal_mul_diagonal]
  congr 2
  funext p
  rcases p with p | p <;> simp only [Sum.elim_inl, Sum.elim_inr] <;> split_ifs
  · rw [← Real.exp_add]; congr 1; ring
  · norm_num
  · rw [← Real.exp_add]; congr 1; ring
  · norm_num

/-- column `k` of the quadrature form of `T` -/
noncomputable def sourceCols (N : ℕ) (T : ℕ → ℕ → ℂ) (k : Fin N) : Matrix (Fin N ⊕ Fin N) (Fin 2) ℝ :=
  Matrix.of fun p b => Sum.elim (fun i : Fin N => if b = 0 then (T i k).re else -(T i k).im) (fun i : Fin N => if b = 0 then (T i k).im else (T i k).re) p

/-- the covariance matrix of a source: that of the vacuum plus a matrix of rank two -/
theorem source_cov (T : ℕ → ℕ → ℂ) (r : ℝ) (k : Fin N) (st : GState ℝ) (h : IsSource N T r hbar k st) :
    phaseVec N st.mu = 0 ∧ phase N N st.cov = (hbar / 2) • (1 + sourceCols N T k * diagonal ![Real.exp (-2 * r) - 1, Real.exp (2 * r) - 1] * (sourceCols N T k)ᵀ) := by
  obtain ⟨s0, hs, hmu, hcov, hst⟩ := h
  obtain ⟨r', hr', -, hm, hc⟩ := passive_phase s0 N N T hbar hs
  obtain rfl : st = r' := by rw [hst] at hr'; injection hr'
  have hv : phaseVec N s0.mu = 0 := funext fun p => hmu _ (quad_lt N p)
  refine ⟨by rw [hm, hv, mulVec_zero], ?_⟩
  rw [hc, hcov]
  have hd : (diagonal (Sum.elim (fun i => if i = k then Real.exp (-2 * r) else 1) fun i => if i = k then Real.exp (2 * r) else 1) : Matrix (Fin N ⊕ Fin N) (Fin N ⊕ Fin N) ℝ) =
      1 + diagonal (Sum.elim (fun i => if i = k then Real.exp (-2 * r) - 1 else 0) fun i => if i = k then Real.exp (2 * r) - 1 else 0) := by
    rw [← diagonal_one, diagonal_add]
    congr 1; funext p
    rcases p with p | p <;> simp only [Sum.elim_inl, Sum.elim_inr] <;> split_ifs <;> ring
  have hP : phase N N (Symp.interferometer N N T) * diagonal (Sum.elim (fun i => if i = k then Real.exp (-2 * r) - 1 else 0) fun i => if i = k then Real.exp (2 * r) - 1 else 0) * (phase N N (Symp.interferometer N N T))ᵀ =
      sourceCols N T k * diagonal ![Real.exp (-2 * r) - 1, Real.exp (2 * r) - 1] * (sourceCols N T k)ᵀ := by
    rw [phase_interferometer]
    ext p q
    rw [mul_apply, mul_apply]
    simp only [mul_diagonal, Fintype.sum_sum_type, Sum.elim_inl, Sum.elim_inr, mul_ite, mul_zero, ite_mul, zero_mul, Finset.sum_ite_eq', Finset.mem_univ, if_true, Fin.sum_univ_two]
    rcases p with p | p <;> rcases q with q | q <;> simp [sourceCols, toMatrix]
  rw [hd, Matrix.mul_smul, Matrix.smul_mul, Matrix.mul_add, Matrix.mul_one, Matrix.add_mul, hP]
  generalize sourceCols N T k * diagonal ![Real.exp (-2 * r) - 1, Real.exp (2 * r) - 1] * (sourceCols N T k)ᵀ = Z
  module

theorem source_physical (hh : 0 < hbar) (T : ℕ → ℕ → ℂ) (hT : (1 - toMatrix N N T * (toMatrix N N T)ᴴ).PosSemidef) (r : ℝ) (k : Fin N) (st : GState ℝ) (h : IsSource N T r hbar k st) : Physical (phase N N st.cov) hbar := by
  obtain ⟨s0, hs, hmu, hcov, hst⟩ := h
  exact physical_passive N s0 st hs T hbar hh.le hT (source_squeezed hh s0.cov r k hcov) hst

/-- the columns of a contraction have norm at most one -/
theorem contraction_col (T : ℕ → ℕ → ℂ) (hT : (1 - toMatrix N N T * (toMatrix N N T)ᴴ).PosSemidef) (k : Fin N) : ∑ j : Fin N, ‖T j k‖ ^ 2 ≤ 1 := by
  have h : (1 - (toMatrix N N T)ᴴ * toMatrix N N T).PosSemidef := by
    haveI : Invertible (1 : Matrix (Fin N) (Fin N) ℂ) := invertibleOne
    have e1 := PosDef.fromBlocks₂₂ (1 : Matrix (Fin N) (Fin N) ℂ) (toMatrix N N T) (D := 1) PosDef.one
    have e2 := PosDef.fromBlocks₁₁ (A := (1 : Matrix (Fin N) (Fin N) ℂ)) (toMatrix N N T) 1 PosDef.one
    rw [inv_one, Matrix.mul_one] at e1 e2
    exact e2.mp (e1.mpr hT)
  have hd := h.diag_nonneg (i := k)
  rw [Matrix.sub_apply, one_apply_eq, mul_apply] at hd
  have e : ∑ j : Fin N, (toMatrix N N T)ᴴ k j * toMatrix N N T j k = ((∑ j : Fin N, ‖T j k‖ ^ 2 : ℝ) : ℂ) := by
    push_cast
    refine Finset.sum_congr rfl fun j _ => ?_
    rw [conjTranspose_apply]
    exact Complex.conj_mul' _
  rw [e, ← Complex.ofReal_one, ← Complex.ofReal_sub, Complex.zero_le_real] at hd
  linarith

theorem source_det (hh : 0 < hbar) (T : ℕ → ℕ → ℂ) (r : ℝ) (k : Fin N) (cov : ℕ → ℕ → ℝ)
    (hcov : phase N N cov = (hbar / 2) • (1 + sourceCols N T k * diagonal ![Real.exp (-2 * r) - 1, Real.exp (2 * r) - 1] * (sourceCols N T k)ᵀ)) (x : Fin N → ℝ) (h1 : ∀ k, x k ≤ 1) :
    ((1 / hbar) • (diagonal (Sum.elim (fun k => Real.sqrt (1 - x k)) fun k => Real.sqrt (1 - x k)) * phase N N cov * diagonal (Sum.elim (fun k => Real.sqrt (1 - x k)) fun k => Real.sqrt (1 - x k)) +
      (hbar / 2) • diagonal (Sum.elim (fun k => 1 + x k) fun k => 1 + x k))).det =
      ((1 - (1 - ∑ j : Fin N, ‖T j k‖ ^ 2 + ∑ j : Fin N, ‖T j k‖ ^ 2 * x j)) * Real.exp (-2 * r) + (1 + (1 - ∑ j : Fin N, ‖T j k‖ ^ 2 + ∑ j : Fin N, ‖T j k‖ ^ 2 * x j))) / 2 *
      (((1 - (1 - ∑ j : Fin N, ‖T j k‖ ^ 2 + ∑ j : Fin N, ‖T j k‖ ^ 2 * x j)) * Real.exp (2 * r) + (1 + (1 - ∑ j : Fin N, ‖T j k‖ ^ 2 + ∑ j : Fin N, ‖T j k‖ ^ 2 * x j))) / 2) := by
  have hne := hh.ne'
  have hsq : ∀ k, Real.sqrt (1 - x k) * Real.sqrt (1 - x k) = 1 - x k := fun k => Real.mul_self_sqrt (by linarith [h1 k])
  have hDD : (diagonal (Sum.elim (fun k => Real.sqrt (1 - x k)) fun k => Real.sqrt (1 - x k)) : Matrix (Fin N ⊕ Fin N) (Fin N ⊕ Fin N) ℝ) * diagonal (Sum.elim (fun k => Real.sqrt (1 - x k)) fun k => Real.sqrt (1 - x k)) =
      diagonal (Sum.elim (fun k => 1 - x k) fun k => 1 - x k) := by
    rw [diagonal_mul_diagonal]
    congr 1; funext p
    rcases p with p | p <;> simp [hsq]
  have hsum : (diagonal (Sum.elim (fun k => 1 - x k) fun k => 1 - x k) : Matrix (Fin N ⊕ Fin N) (Fin N ⊕ Fin N) ℝ) + diagonal (Sum.elim (fun k => 1 + x k) fun k => 1 + x k) = (2 : ℝ) • 1 := by
    rw [diagonal_add, ← diagonal_one, ← diagonal_smul]
    congr 1; funext p
    rcases p with p | p <;> simp <;> ring
  have hg : (sourceCols N T k)ᵀ * diagonal (Sum.elim (fun k => 1 - x k) fun k => 1 - x k) * sourceCols N T k = (∑ j : Fin N, ‖T j k‖ ^ 2 - ∑ j : Fin N, ‖T j k‖ ^ 2 * x j) • 1 := by
    rw [← Finset.sum_sub_distrib]
    ext a b
    rw [mul_apply]
    simp only [mul_diagonal, Fintype.sum_sum_type, Sum.elim_inl, Sum.elim_inr, transpose_apply]
    rw [← Finset.sum_add_distrib]
    have hn : ∀ j : Fin N, ‖T j k‖ ^ 2 = (T j k).re * (T j k).re + (T j k).im * (T j k).im := fun j => by rw [← Complex.normSq_eq_norm_sq, Complex.normSq_apply]
    fin_cases a <;> fin_cases b <;> simp [sourceCols, hn]
    · rw [← Finset.sum_sub_distrib]
      exact Finset.sum_congr rfl fun j _ => by ring
    · exact Finset.sum_eq_zero fun j _ => by ring
    · exact Finset.sum_eq_zero fun j _ => by ring
    · rw [← Finset.sum_sub_distrib]
      exact Finset.sum_congr rfl fun j _ => by ring
  generalize ∑ j : Fin N, ‖T j k‖ ^ 2 = g at *
  generalize ∑ j : Fin N, ‖T j k‖ ^ 2 * x j = gx at *
  generalize sourceCols N T k = C at *
  generalize (diagonal (Sum.elim (fun k => Real.sqrt (1 - x k)) fun k => Real.sqrt (1 - x k)) : Matrix (Fin N ⊕ Fin N) (Fin N ⊕ Fin N) ℝ) = D at *
  generalize (diagonal (Sum.elim (fun k => 1 - x k) fun k => 1 - x k) : Matrix (Fin N ⊕ Fin N) (Fin N ⊕ Fin N) ℝ) = X at *
  generalize (diagonal (Sum.elim (fun k => 1 + x k) fun k => 1 + x k) : Matrix (Fin N ⊕ Fin N) (Fin N ⊕ Fin N) ℝ) = Y at *
  have e1 : (1 / hbar) • (D * phase N N cov * D + (hbar / 2) • Y) = 1 + (D * C * ((1 / 2 : ℝ) • diagonal ![Real.exp (-2 * r) - 1, Real.exp (2 * r) - 1])) * (Cᵀ * D) := by
    have e2 : D * phase N N cov * D = (hbar / 2) • (X + D * C * diagonal ![Real.exp (-2 * r) - 1, Real.exp (2 * r) - 1] * (Cᵀ * D)) := by
      rw [hcov, Matrix.mul_smul, Matrix.smul_mul, Matrix.mul_add, Matrix.add_mul, Matrix.mul_one, hDD]
      simp only [Matrix.mul_assoc]
    rw [e2, ← smul_add, add_right_comm, hsum, Matrix.mul_smul, Matrix.smul_mul, smul_add, smul_add, smul_smul, smul_smul, smul_smul]
    congr 2
    · have : 1 / hbar * (hbar / 2) * 2 = 1 := by field_simp
      rw [← smul_smul, smul_smul, this, one_smul]
    · field_simp
  rw [e1, det_one_add_mul_comm]
  have e3 : Cᵀ * D * (D * C * ((1 / 2 : ℝ) • diagonal ![Real.exp (-2 * r) - 1, Real.exp (2 * r) - 1])) = ((g - gx) / 2) • diagonal ![Real.exp (-2 * r) - 1, Real.exp (2 * r) - 1] := by
    have : Cᵀ * D * (D * C) = (g - gx) • 1 := by
      rw [← hg, ← hDD]; simp only [Matrix.mul_assoc]
    rw [← Matrix.mul_assoc, this, Matrix.smul_mul, Matrix.one_mul, smul_smul]
    congr 1; ring
  rw [e3, det_fin_two]
  simp
  ring

/-- **C87** the photon numbers of source `k` behind the interferometer: each of the `m` photons of the squeezed vacuum is detected in mode `j` with probability `|T_jk|²` and lost with the remaining probability -/
theorem source_gf (hh : 0 < hbar) (T : ℕ → ℕ → ℂ) (hT : (1 - toMatrix N N T * (toMatrix N N T)ᴴ).PosSemidef) (r : ℝ) (k : Fin N) (st : GState ℝ) (h : IsSource N T r hbar k st) (ρ : (Fin N → ℕ) → (Fin N → ℕ) → ℂ)
    (hρ : IsFockMatrix N st.mu st.cov hbar ρ) (x : Fin N → ℝ) (h0 : ∀ k, 0 ≤ x k) (h1 : ∀ k, x k ≤ 1) :
    ∃ G, HasSum (fun n : Fin N → ℕ => (∏ k, x k ^ n k) * (ρ n n).re) G ∧ HasSum (fun m => sqDist (1 - Real.tanh r ^ 2) (1 / 2) m * (1 - ∑ j : Fin N, ‖T j k‖ ^ 2 + ∑ j : Fin N, ‖T j k‖ ^ 2 * x j) ^ m) G := by
  obtain ⟨hmu, hcov⟩ := source_cov T r k st h
  have hph := source_physical hh T hT r k st h
  have hcol := contraction_col T hT k
  have hg := (joint_gf hh st.mu st.cov hph ρ hρ x h0 h1 _ _ rfl rfl).1
  refine ⟨_, hg, ?_⟩
  have hx : ∑ j : Fin N, ‖T j k‖ ^ 2 * x j ≤ ∑ j : Fin N, ‖T j k‖ ^ 2 := Finset.sum_le_sum fun j _ => mul_le_of_le_one_right (sq_nonneg _) (h1 j)
  have hx0 : 0 ≤ ∑ j : Fin N, ‖T j k‖ ^ 2 * x j := Finset.sum_nonneg fun j _ => mul_nonneg (sq_nonneg _) (h0 j)
  have ht : Real.tanh r ^ 2 < 1 := by
    rw [sq_lt_one_iff_abs_lt_one]
    exact abs_lt.mpr ⟨Real.neg_one_lt_tanh r, Real.tanh_lt_one r⟩
  set y := 1 - ∑ j : Fin N, ‖T j k‖ ^ 2 + ∑ j : Fin N, ‖T j k‖ ^ 2 * x j with hy
  have hy0 : 0 ≤ y := by linarith
  have hy1 : y ≤ 1 := by linarith
  refine hs_eq (sqDist_hasSum (Real.tanh r) (1 / 2) (by norm_num) ht y (abs_le.mpr ⟨by linarith, hy1⟩)) (fun _ => rfl) ?_
  rw [hmu, mulVec_zero, zero_dotProduct, neg_zero, zero_div, Real.exp_zero]
  have hdet : ((1 / hbar) • (diagonal (Sum.elim (fun k => Real.sqrt (1 - x k)) fun k => Real.sqrt (1 - x k)) * phase N N st.cov * diagonal (Sum.elim (fun k => Real.sqrt (1 - x k)) fun k => Real.sqrt (1 - x k)) +
      (hbar / 2) • diagonal (Sum.elim (fun k => 1 + x k) fun k => 1 + x k))).det = (1 - y ^ 2 * Real.tanh r ^ 2) / (1 - Real.tanh r ^ 2) := by
    rw [← lossy_det r y hy0 hy1]
    exact source_det hh T r k st.cov hcov x h1
  have hA : 0 < 1 - Real.tanh r ^ 2 := by linarith
  have hB : 0 < 1 - y ^ 2 * Real.tanh r ^ 2 := by
    have := mul_le_of_le_one_left (sq_nonneg (Real.tanh r)) (pow_le_one₀ hy0 hy1 : y ^ 2 ≤ 1)
    linarith
  rw [hdet, ← Real.sqrt_eq_rpow, ← Real.sqrt_eq_rpow, Real.sqrt_div' _ hA.le, one_div_div]

/-- the entries of the covariance matrix of a source -/
theorem source_entries (T : ℕ → ℕ → ℂ) (r : ℝ) (k : Fin N) (st : GState ℝ) (h : IsSource N T r hbar k st) (i j : ℕ) (hi : i < N) (hj : j < N) :
    st.mu i = 0 ∧ st.mu (N + i) = 0 ∧
    st.cov i j = hbar / 2 * ((if i = j then 1 else 0) + (T i k).re * (T j k).re * (Real.exp (-2 * r) - 1) + (T i k).im * (T j k).im * (Real.exp (2 * r) - 1)) ∧
    st.cov i (N + j) = hbar / 2 * ((T i k).re * (T j k).im * (Real.exp (-2 * r) - 1) - (T i k).im * (T j k).re * (Real.exp (2 * r) - 1)) ∧
    st.cov (N + i) j = hbar / 2 * ((T i k).im * (T j k).re * (Real.exp (-2 * r) - 1) - (T i k).re * (T j k).im * (Real.exp (2 * r) - 1)) ∧
    st.cov (N + i) (N + j) = hbar / 2 * ((if i = j then 1 else 0) + (T i k).im * (T j k).im * (Real.exp (-2 * r) - 1) + (T i k).re * (T j k).re * (Real.exp (2 * r) - 1)) := by
  obtain ⟨hm, hc⟩ := source_cov T r k st h
  have hc' : ∀ p q, phase N N st.cov p q = hbar / 2 * ((1 : Matrix (Fin N ⊕ Fin N) (Fin N ⊕ Fin N) ℝ) p q + (sourceCols N T k p 0 * (Real.exp (-2 * r) - 1) * sourceCols N T k q 0 + sourceCols N T k p 1 * (Real.exp (2 * r) - 1) * sourceCols N T k q 1)) := by
    intro p q
    rw [hc, Matrix.smul_apply, Matrix.add_apply, mul_apply, Fin.sum_univ_two]
    simp [mul_diagonal]
  refine ⟨congrFun hm (Sum.inl ⟨i, hi⟩), congrFun hm (Sum.inr ⟨i, hi⟩), ?_, ?_, ?_, ?_⟩
  · refine (hc' (Sum.inl ⟨i, hi⟩) (Sum.inl ⟨j, hj⟩)).trans ?_
    simp [sourceCols, Matrix.one_apply]
    ring_nf
    simp
  · refine (hc' (Sum.inl ⟨i, hi⟩) (Sum.inr ⟨j, hj⟩)).trans ?_
    simp [sourceCols, Matrix.one_apply]
    ring_nf
    simp
  · refine (hc' (Sum.inr ⟨i, hi⟩) (Sum.inl ⟨j, hj⟩)).trans ?_
    simp [sourceCols, Matrix.one_apply]
    ring_nf
    simp
  · refine (hc' (Sum.inr ⟨i, hi⟩) (Sum.inr ⟨j, hj⟩)).trans ?_
    simp [sourceCols, Matrix.one_apply]
    ring_nf
    simp

theorem source_sym (T : ℕ → ℕ → ℂ) (r : ℝ) (k : Fin N) (st : GState ℝ) (h : IsSource N T r hbar k st) : ∀ i < 2 * N, ∀ j < 2 * N, st.cov i j = st.cov j i := by
  have hs : (phase N N st.cov).IsSymm := by
    rw [(source_cov T r k st h).2, IsSymm, transpose_smul, transpose_add, transpose_one, transpose_mul, transpose_mul, transpose_transpose, diagonal_transpose, Matrix.mul_assoc]
  intro i hi j hj
  obtain ⟨p, rfl⟩ := exists_quad N i hi
  obtain ⟨q, rfl⟩ := exists_quad N j hj
  exact congrFun (congrFun hs q) p

theorem exp_sinh (r : ℝ) : Real.exp (-2 * r) + Real.exp (2 * r) = 2 + 4 * Real.sinh r ^ 2 ∧ (Real.exp (-2 * r) - 1) ^ 2 + (Real.exp (2 * r) - 1) ^ 2 = 8 * Real.sinh r ^ 4 + 8 * (1 / 2 * Real.sinh (2 * r)) ^ 2 ∧
    (Real.exp (-2 * r) - 1) * (Real.exp (2 * r) - 1) = -4 * Real.sinh r ^ 2 := by
  have e1 : Real.exp (-2 * r) = Real.exp (-r) ^ 2 := by rw [pow_two, ← Real.exp_add]; congr 1; ring
  have e2 : Real.exp (2 * r) = Real.exp r ^ 2 := by rw [pow_two, ← Real.exp_add]; congr 1; ring
  have h : Real.exp (-r) * Real.exp r = 1 := by rw [← Real.exp_add]; simp
  have hs : Real.sinh r = (Real.exp r - Real.exp (-r)) / 2 := Real.sinh_eq r
  have hc : Real.cosh r = (Real.exp r + Real.exp (-r)) / 2 := Real.cosh_eq r
  rw [Real.sinh_two_mul, hs, hc, e1, e2]
  generalize Real.exp (-r) = u at *
  generalize Real.exp r = v at *
  have h2 : u ^ 2 * v ^ 2 = 1 := by rw [← mul_pow, h, one_pow]
  refine ⟨?_, ?_, ?_⟩
  · linear_combination 2 * h
  · linear_combination (2 * u ^ 2 + 2 * v ^ 2 - 2 * u * v - 2) * h
  · linear_combination (1) * h2 - 2 * h

theorem source_mean_alg (hbar a b e f s : ℝ) (hh : hbar ≠ 0) (h1 : e + f = 2 + 4 * s) :
    (0 ^ 2 + 0 ^ 2 + hbar / 2 * (1 + a * a * (e - 1) + b * b * (f - 1)) + hbar / 2 * (1 + b * b * (e - 1) + a * a * (f - 1)) - hbar) / (2 * hbar) = s * (a * a + b * b) := by
  field_simp
  linear_combination hbar * (a * a + b * b) * h1

/-- **C87** `number_means` (distinguishable_squeezers.py:60-75): the sum over the sources of the mean photon numbers of their states behind the interferometer -/
theorem numberMeans_correct (hh : 0 < hbar) (T : ℕ → ℕ → ℂ) (rs : ℕ → ℝ) (st : Fin N → GState ℝ) (h : ∀ k : Fin N, IsSource N T (rs k) hbar k (st k)) (i : ℕ) (hi : i < N) :
    (Disting.numberMeans N T rs i : ℂ) = ∑ k : Fin N, numberMean N (st k).mu (st k).cov hbar i := by
  unfold Disting.numberMeans
  rw [Finset.sum_range, Complex.ofReal_sum]
  refine Finset.sum_congr rfl fun k _ => ?_
  rw [numberMean, number_mean N _ _ hbar hh (source_sym T (rs k) k (st k) (h k)) i hi]
  obtain ⟨m1, m2, c1, c2, c3, c4⟩ := source_entries T (rs k) k (st k) (h k) i i hi hi
  congr 1
  rw [add_comm i N, m1, m2, c1, c4, if_pos rfl, mul_pow, ← Complex.normSq_eq_norm_sq, Complex.normSq_apply, source_mean_alg _ _ _ _ _ _ hh.ne' (exp_sinh (rs k)).1]

theorem source_cov_alg (hbar a b c d e f s t : ℝ) (hh : hbar ≠ 0) (h2 : (e - 1) ^ 2 + (f - 1) ^ 2 = 8 * s ^ 2 + 8 * t ^ 2) :
    ((hbar / 2 * (0 + a * c * (e - 1) + b * d * (f - 1))) ^ 2 + (hbar / 2 * (a * d * (e - 1) - b * c * (f - 1))) ^ 2 + (hbar / 2 * (b * c * (e - 1) - a * d * (f - 1))) ^ 2 + (hbar / 2 * (0 + b * d * (e - 1) + a * c * (f - 1))) ^ 2
      + 2 * 0) / (2 * hbar ^ 2) = (a * a + b * b) * s ^ 2 * (c * c + d * d) + (a * a + b * b) * t ^ 2 * (c * c + d * d) := by
  field_simp
  linear_combination hbar ^ 2 * (a ^ 2 + b ^ 2) * (c ^ 2 + d ^ 2) * h2

theorem source_var_alg (hbar a b e f s t : ℝ) (hh : hbar ≠ 0) (h1 : e + f = 2 + 4 * s) (h2 : (e - 1) ^ 2 + (f - 1) ^ 2 = 8 * s ^ 2 + 8 * t ^ 2) (h3 : (e - 1) * (f - 1) = -4 * s) :
    (1 / 2 * (hbar / 2 * (1 + a * a * (e - 1) + b * b * (f - 1)) + hbar / 2 * (1 + b * b * (e - 1) + a * a * (f - 1))) ^ 2
      - (hbar / 2 * (1 + a * a * (e - 1) + b * b * (f - 1)) * (hbar / 2 * (1 + b * b * (e - 1) + a * a * (f - 1))) - hbar / 2 * (a * b * (e - 1) - b * a * (f - 1)) * (hbar / 2 * (b * a * (e - 1) - a * b * (f - 1))))
      + (0 ^ 2 * (hbar / 2 * (1 + a * a * (e - 1) + b * b * (f - 1))) + 2 * (0 * 0 * (hbar / 2 * (a * b * (e - 1) - b * a * (f - 1)))) + 0 ^ 2 * (hbar / 2 * (1 + b * b * (e - 1) + a * a * (f - 1))))) / hbar ^ 2 - 1 / 4
      = (a * a + b * b) * s ^ 2 * (a * a + b * b) + (a * a + b * b) * t ^ 2 * (a * a + b * b) + s * (a * a + b * b) := by
  rw [sub_eq_iff_eq_add, div_eq_iff (pow_ne_zero 2 hh)]
  linear_combination hbar ^ 2 / 8 * (a ^ 2 + b ^ 2) ^ 2 * h2 + hbar ^ 2 / 4 * (a ^ 2 + b ^ 2) * h1

/-- **C87** `number_cov` (distinguishable_squeezers.py:78-93): the sum over the sources of the covariances of the photon numbers of their states behind the interferometer -/
theorem numberCov_correct (hh : 0 < hbar) (T : ℕ → ℕ → ℂ) (rs : ℕ → ℝ) (st : Fin N → GState ℝ) (h : ∀ k : Fin N, IsSource N T (rs k) hbar k (st k)) (i j : ℕ) (hi : i < N) (hj : j < N) :
    (Disting.numberCov N T rs i j : ℂ) = ∑ k : Fin N, (numberCorr N (st k).mu (st k).cov hbar i j - numberMean N (st k).mu (st k).cov hbar i * numberMean N (st k).mu (st k).cov hbar j) := by
  have hn : ∀ i (k : Fin N), ‖T i k‖ ^ 2 = (T i k).re * (T i k).re + (T i k).im * (T i k).im := fun j k => by rw [← Complex.normSq_eq_norm_sq, Complex.normSq_apply]
  unfold Disting.numberCov Disting.numberMeans
  simp only [Finset.sum_range]
  by_cases hij : i = j
  · subst hij
    rw [if_pos rfl, ← Finset.sum_add_distrib, ← Finset.sum_add_distrib, Complex.ofReal_sum]
    refine Finset.sum_congr rfl fun k _ => ?_
    rw [numberCorr, if_pos rfl, numberMean, ← pow_two, number_var N _ _ hbar hh (source_sym T (rs k) k (st k) (h k)) i hi]
    obtain ⟨m1, m2, c1, c2, c3, c4⟩ := source_entries T (rs k) k (st k) (h k) i i hi hi
    congr 1
    obtain ⟨h1, h2, h3⟩ := exp_sinh (rs k)
    rw [m1, m2, c1, c2, c3, c4, if_pos rfl, mul_pow (Real.sinh (rs k)) ‖T i k‖, hn i k, source_var_alg hbar _ _ _ _ (Real.sinh (rs k) ^ 2) (1 / 2 * Real.sinh (2 * rs k)) hh.ne' h1 (h2.trans (by ring)) h3]
    ring
  · rw [if_neg hij, add_zero, ← Finset.sum_add_distrib, Complex.ofReal_sum]
    refine Finset.sum_congr rfl fun k _ => ?_
    rw [numberCorr, if_neg hij, numberMean, numberMean, number_covar N _ _ hbar hh (source_sym T (rs k) k (st k) (h k)) i j hi hj hij]
    obtain ⟨m1, m2, c1, c2, c3, c4⟩ := source_entries T (rs k) k (st k) (h k) i j hi hj
    obtain ⟨m3, m4, -⟩ := source_entries T (rs k) k (st k) (h k) j i hj hi
    congr 1
    obtain ⟨h1, h2, h3⟩ := exp_sinh (rs k)
    rw [m1, m2, m3, m4, c1, c2, c3, c4, if_neg hij, hn, hn]
    have e := source_cov_alg hbar (T i k).re (T i k).im (T j k).re (T j k).im (Real.exp (-2 * rs k)) (Real.exp (2 * rs k)) (Real.sinh (rs k) ^ 2) (1 / 2 * Real.sinh (2 * rs k)) hh.ne' (h2.trans (by ring))
    simp only [mul_zero, add_zero] at e ⊢
    rw [e]
    ring

/-! The sampler -/

section Sampler
open Verif.Model.Disting

theorem expect_pure {α : Type} (x : α) (f : α → ℝ) : (pure x : Expect α) f = f x := rfl

theorem expect_bind {α β : Type} (m : Expect α) (k : α → Expect β) (f : β → ℝ) : (m >>= k) f = m fun x => k x f := rfl

/-- expectations are homogeneous -/
def Homog {α : Type} (m : Expect α) : Prop := ∀ (c : ℝ) (g : α → ℝ), m (fun x => c * g x) = c * m g

theorem homog_pure {α : Type} (x : α) : Homog (pure x : Expect α) := fun _ _ => rfl

theorem homog_bind {α β : Type} (m : Expect α) (k : α → Expect β) (hm : Homog m) (hk : ∀ x, Homog (k x)) : Homog (m >>= k) := fun c g => by
  rw [expect_bind, expect_bind]
  have : (fun x => k x fun y => c * g y) = fun x => c * k x g := funext fun x => hk x c g
  rw [this, hm c]

theorem homog_choice (size : ℕ) (p : ℕ → ℝ) : Homog (choice size p) := fun c g => by
  unfold choice
  rw [Finset.mul_sum]
  exact Finset.sum_congr rfl fun _ _ => by ring

theorem homog_choices (size : ℕ) (p : ℕ → ℝ) (m : ℕ) : Homog (choices size p m) := by
  induction m with
  | zero => exact homog_pure _
  | succ m ih => exact homog_bind _ _ (homog_choice _ _) fun x => homog_bind _ _ ih fun l => homog_pure _

theorem homog_binomial (n : ℕ) (p : ℝ) : Homog (binomial n p) := fun c g => by
  unfold binomial
  rw [Finset.mul_sum]
  exact Finset.sum_congr rfl fun _ _ => by ring

theorem homog_sourceStep (M : ℕ) (detection : ℕ → ℝ) (probs pn : ℕ → ℕ → ℝ) (cutoff : ℕ) (output : ℕ → ℕ) (i : ℕ) : Homog (sourceStep M detection probs pn cutoff output i) := by
  refine homog_bind _ _ (homog_choice _ _) fun n => homog_bind _ _ (homog_binomial _ _) fun k => ?_
  split_ifs
  · exact homog_bind _ _ (homog_choices _ _ _) fun l => homog_pure _
  · exact homog_pure _

theorem homog_foldlM {α β : Type} (step : β → α → Expect β) (h : ∀ b a, Homog (step b a)) (l : List α) : ∀ b, Homog (l.foldlM step b) := by
  induction l with
  | nil => exact fun b => homog_pure b
  | cons a l ih =>
    intro b
    rw [List.foldlM_cons]
    exact homog_bind _ _ (h b a) ih

theorem homog_sampleOne (M : ℕ) (T : ℕ → ℕ → ℂ) (rs : ℕ → ℝ) (cutoff : ℕ) : Homog (sampleOne M T rs cutoff) :=
  homog_foldlM _ (fun _ _ => homog_sourceStep _ _ _ _ _ _ _) _ _

theorem choices_gf (M : ℕ) (p z : ℕ → ℝ) (m : ℕ) : choices M p m (fun l => ∏ j ∈ Finset.range M, z j ^ l.count j) = (∑ j ∈ Finset.range M, p j * z j) ^ m := by
  induction m with
  | zero => simp [choices, expect_pure]
  | succ m ih =>
    rw [choices, expect_bind]
    simp only [expect_bind, expect_pure]
    have hstep : ∀ x ∈ Finset.range M, choices M p m (fun l => ∏ j ∈ Finset.range M, z j ^ (x :: l).count j) = z x * (∑ j ∈ Finset.range M, p j * z j) ^ m := by
      intro x hx
      rw [← ih, ← homog_choices]
      congr 1
      funext l
      rw [← Finset.mul_prod_erase _ _ hx, ← Finset.mul_prod_erase (Finset.range M) (fun j => z j ^ l.count j) hx, List.count_cons_self, pow_succ']
      rw [mul_assoc]
      congr 2
      refine Finset.prod_congr rfl fun j hj => ?_
      rw [List.count_cons_of_ne (Finset.ne_of_mem_erase hj).symm]
    unfold choice
    rw [pow_succ', Finset.sum_mul]
    exact Finset.sum_congr rfl fun x hx => by beta_reduce; rw [hstep x hx]; ring

theorem binomial_gf (n : ℕ) (d w : ℝ) : binomial n d (fun k => w ^ k) = (1 - d + d * w) ^ n := by
  unfold binomial
  rw [add_comm (1 - d), add_pow]
  exact Finset.sum_congr rfl fun k _ => by rw [mul_pow]; ring

theorem sourceStep_gf (M : ℕ) (detection : ℕ → ℝ) (probs pn : ℕ → ℕ → ℝ) (cutoff : ℕ) (output : ℕ → ℕ) (i : ℕ) (z : ℕ → ℝ) :
    sourceStep M detection probs pn cutoff output i (fun o => ∏ j ∈ Finset.range M, z j ^ o j) =
      (∑ m ∈ Finset.range cutoff, pn i m * (1 - min 1 (detection i) + min 1 (detection i) * ∑ j ∈ Finset.range M, probs i j * z j) ^ m) * ∏ j ∈ Finset.range M, z j ^ output j := by
  unfold sourceStep
  rw [expect_bind]
  simp only [expect_bind]
  have hk : ∀ k : ℕ, (if k > 0 then (do let outputModes ← choices M (probs i) k; pure fun j => output j + outputModes.count j) else pure output : Expect (ℕ → ℕ)) (fun o => ∏ j ∈ Finset.range M, z j ^ o j) =
      (∏ j ∈ Finset.range M, z j ^ output j) * (∑ j ∈ Finset.range M, probs i j * z j) ^ k := by
    intro k
    by_cases h : k > 0
    · rw [if_pos h, expect_bind]
      simp only [expect_pure, pow_add, Finset.prod_mul_distrib]
      rw [homog_choices, choices_gf]
    · rw [if_neg h, expect_pure, show k = 0 by omega, pow_zero, mul_one]
  simp only [hk]
  have hb : ∀ n, binomial n (min 1 (detection i)) (fun k => (∏ j ∈ Finset.range M, z j ^ output j) * (∑ j ∈ Finset.range M, probs i j * z j) ^ k) =
      (∏ j ∈ Finset.range M, z j ^ output j) * (1 - min 1 (detection i) + min 1 (detection i) * ∑ j ∈ Finset.range M, probs i j * z j) ^ n := fun n => by
    rw [homog_binomial, binomial_gf]
  simp only [hb]
  rw [homog_choice, mul_comm]
  rfl

theorem fold_gf (M : ℕ) (detection : ℕ → ℝ) (probs pn : ℕ → ℕ → ℝ) (cutoff : ℕ) (z : ℕ → ℝ) (l : List ℕ) : ∀ output : ℕ → ℕ,
    (l.foldlM (sourceStep M detection probs pn cutoff) output) (fun o => ∏ j ∈ Finset.range M, z j ^ o j) =
      (l.map fun i => ∑ m ∈ Finset.range cutoff, pn i m * (1 - min 1 (detection i) + min 1 (detection i) * ∑ j ∈ Finset.range M, probs i j * z j) ^ m).prod * ∏ j ∈ Finset.range M, z j ^ output j := by
  induction l with
  | nil => intro output; rw [List.foldlM_nil, expect_pure, List.map_nil, List.prod_nil, one_mul]
  | cons a l ih =>
    intro output
    rw [List.foldlM_cons, expect_bind]
    simp only [ih]
    rw [homog_sourceStep, sourceStep_gf, List.map_cons, List.prod_cons]
    ring

/-- **C87** `sample` (distinguishable_squeezers.py:23-57): the generating function of a row, for arbitrary real `z`, when every column of `T` has norm at most one.  Source `i` emits `m < cutoff` photons with the probability
of the squeezed vacuum, conditioned on fewer than `cutoff` photons; each photon is found in mode `j` with probability `|T_ji|²`, and lost otherwise. -/
theorem sampleOne_gf (T : ℕ → ℕ → ℂ) (hT : ∀ k : Fin N, ∑ j : Fin N, ‖T j k‖ ^ 2 ≤ 1) (rs : ℕ → ℝ) (cutoff : ℕ) (z : Fin N → ℝ) :
    sampleOne N T rs cutoff (fun o => ∏ j : Fin N, z j ^ o j) =
      ∏ k : Fin N, (∑ m ∈ Finset.range cutoff, sqDist (1 - Real.tanh (rs k) ^ 2) (1 / 2) m * (1 - ∑ j : Fin N, ‖T j k‖ ^ 2 + ∑ j : Fin N, ‖T j k‖ ^ 2 * z j) ^ m) / ∑ m ∈ Finset.range cutoff, sqDist (1 - Real.tanh (rs k) ^ 2) (1 / 2) m := by
  have hz : ∀ o : ℕ → ℕ, ∏ j : Fin N, z j ^ o j = ∏ j ∈ Finset.range N, (if h : j < N then z ⟨j, h⟩ else 0) ^ o j := fun o => by
    rw [Finset.prod_range]
    exact Finset.prod_congr rfl fun j _ => by rw [dif_pos j.2]
  simp only [hz]
  unfold sampleOne
  rw [fold_gf]
  simp only [pow_zero, Finset.prod_const_one, mul_one]
  rw [← List.prod_toFinset _ List.nodup_range, List.toFinset_range, Finset.prod_range]
  refine Finset.prod_congr rfl fun k _ => ?_
  have habs : ∀ i j : ℕ, (T i j * (starRingEnd ℂ) (T i j)).re = ‖T i j‖ ^ 2 := fun i j => by
    rw [Complex.mul_conj, Complex.ofReal_re, Complex.normSq_eq_norm_sq]
  simp only [habs]
  have hd : ∑ a ∈ Finset.range N, ‖T a k‖ ^ 2 = ∑ j : Fin N, ‖T j k‖ ^ 2 := Finset.sum_range _
  rw [hd, min_eq_right (hT k)]
  have hy : (∑ j : Fin N, ‖T j k‖ ^ 2) * ∑ j ∈ Finset.range N, ‖T j k‖ ^ 2 / (∑ j : Fin N, ‖T j k‖ ^ 2) * (if h : j < N then z ⟨j, h⟩ else 0) = ∑ j : Fin N, ‖T j k‖ ^ 2 * z j := by
    rw [Finset.sum_range, Finset.mul_sum]
    refine Finset.sum_congr rfl fun j _ => ?_
    rw [dif_pos j.2, ← mul_assoc]
    congr 1
    by_cases h0 : ∑ j : Fin N, ‖T j k‖ ^ 2 = 0
    · rw [h0, zero_mul]
      exact ((Finset.sum_eq_zero_iff_of_nonneg fun (j : Fin N) _ => sq_nonneg ‖T j k‖).mp h0 j (Finset.mem_univ j)).symm
    · rw [mul_div_cancel₀ _ h0]
  rw [hy, Finset.sum_div]
  have hp : ∀ m ∈ Finset.range cutoff, squeezedStateDistribution (rs k) cutoff 1 m = sqDist (1 - Real.tanh (rs k) ^ 2) (1 / 2) m := fun m hm => by
    rw [squeezed_value _ _ _ _ (Finset.mem_range.mp hm), mul_one]
  rw [Finset.sum_congr rfl hp]
  refine Finset.sum_congr rfl fun m hm => ?_
  rw [hp m hm]
  ring

/-- **C87** as the cutoff grows the law of the samples tends to that of the sum of independent photon numbers, one for each source, distributed as the diagonal of its density matrix -/
theorem sampleOne_limit (hh : 0 < hbar) (T : ℕ → ℕ → ℂ) (hT : (1 - toMatrix N N T * (toMatrix N N T)ᴴ).PosSemidef) (rs : ℕ → ℝ) (st : Fin N → GState ℝ) (h : ∀ k : Fin N, IsSource N T (rs k) hbar k (st k))
    (ρ : Fin N → (Fin N → ℕ) → (Fin N → ℕ) → ℂ) (hρ : ∀ k, IsFockMatrix N (st k).mu (st k).cov hbar (ρ k)) (x : Fin N → ℝ) (h0 : ∀ k, 0 ≤ x k) (h1 : ∀ k, x k ≤ 1) :
    Filter.Tendsto (fun cutoff => sampleOne N T rs cutoff fun o => ∏ j : Fin N, x j ^ o j) Filter.atTop (nhds (∏ k, ∑' n : Fin N → ℕ, (∏ j, x j ^ n j) * (ρ k n n).re)) := by
  have hcol := contraction_col T hT
  simp only [sampleOne_gf T hcol]
  refine tendsto_finsetProd _ fun k _ => ?_
  obtain ⟨G, hG, hq⟩ := source_gf hh T hT (rs k) k (st k) (h k) (ρ k) (hρ k) x h0 h1
  rw [hG.tsum_eq]
  have ht : Real.tanh (rs k) ^ 2 < 1 := by
    rw [sq_lt_one_iff_abs_lt_one]
    exact abs_lt.mpr ⟨Real.neg_one_lt_tanh _, Real.tanh_lt_one _⟩
  have hone := sqDist_hasSum (Real.tanh (rs k)) (1 / 2) (by norm_num) ht 1 (by norm_num)
  simp only [one_pow, mul_one, one_mul] at hone
  rw [div_self (Real.rpow_pos_of_pos (by linarith) _).ne'] at hone
  have := hq.tendsto_sum_nat.div hone.tendsto_sum_nat one_ne_zero
  rwa [div_one] at this

/-- **C87** the rows of `sample` are independent and identically distributed: there are `nSamples` of them, and the expectation of a product of functions of the rows is the product of the expectations -/
theorem sample_independent (T : ℕ → ℕ → ℂ) (rs : ℕ → ℝ) (cutoff : ℕ) (fs : List ((ℕ → ℕ) → ℝ)) :
    Disting.sample N T rs cutoff fs.length (fun rows => if rows.length = fs.length then (List.zipWith (fun f row => f row) fs rows).prod else 0) = (fs.map fun f => sampleOne N T rs cutoff f).prod := by
  induction fs with
  | nil => simp [Disting.sample, expect_pure]
  | cons f fs ih =>
    rw [List.length_cons, Disting.sample, expect_bind]
    simp only [expect_bind, expect_pure, List.length_cons, Nat.succ_inj, List.zipWith_cons_cons, List.prod_cons, List.map_cons]
    have hs : ∀ n, Homog (Disting.sample N T rs cutoff n) := by
      intro n
      induction n with
      | zero => exact homog_pure _
      | succ n ih => exact homog_bind _ _ (homog_sampleOne _ _ _ _) fun x => homog_bind _ _ ih fun l => homog_pure _
    have e : ∀ x, Disting.sample N T rs cutoff fs.length (fun l => if l.length = fs.length then f x * (List.zipWith (fun f row => f row) fs l).prod else 0) = (fs.map fun f => sampleOne N T rs cutoff f).prod * f x := by
      intro x
      rw [← ih, mul_comm, ← hs]
      congr 1
      funext l
      split_ifs <;> ring
    simp only [e]
    rw [homog_sampleOne, mul_comm]

end Sampler

/-- a beam splitter with losses meets the hypotheses -/
example : (1 - toMatrix 2 2 (fun i j => if i = 1 ∧ j = 1 then (-1 / 2 : ℂ) else 1 / 2) * (toMatrix 2 2 (fun i j => if i = 1 ∧ j = 1 then (-1 / 2 : ℂ) else 1 / 2))ᴴ).PosSemidef := by
  have : (1 - toMatrix 2 2 (fun i j => if i = 1 ∧ j = 1 then (-1 / 2 : ℂ) else 1 / 2) * (toMatrix 2 2 (fun i j => if i = 1 ∧ j = 1 then (-1 / 2 : ℂ) else 1 / 2))ᴴ) = (1 / 2 : ℝ) • (1 : Matrix (Fin 2) (Fin 2) ℂ) := by
    ext i j
    rw [Matrix.sub_apply, mul_apply, Fin.sum_univ_two]
    fin_cases i <;> fin_cases j <;> simp [toMatrix, conjTranspose_apply] <;> norm_num
  rw [this]
  exact PosSemidef.one.smul (by norm_num)

end Verif.Props
