/-
C85, C86: the distribution of the total photon number (thewalrus/quantum/photon_number_distributions.py).
-/
import Verif.Props.LossFock
import Verif.Props.FockPure
import Verif.Lemmas.TotalPhotons

set_option linter.style.longLine false
set_option linter.unusedVariables false

namespace Verif.Props
open Verif.Model Verif.Model.Symp Verif.Model.Conv Verif.Model.Dist Verif.Spec Verif.Lemmas Verif.Lemmas.Symp Verif.Lemmas.Heis Verif.Lemmas.FPar Verif.Lemmas.FockS Verif.Lemmas.Tot Matrix
open scoped ComplexOrder

variable {N : ℕ} {hbar : ℝ}

theorem survive_zero (η : ℝ) (i : ℕ) : survive η i 0 = (1 - η) ^ i := by
  simp [survive]

/-- **C85** the generating function of the total photon number of a Gaussian state: `Σ_n x^{|n|} ⟨n|ρ|n⟩ = exp(-(1-x) μᵀ W⁻¹ μ / 2) / √det(W/ħ)` with `W = (1 - x) V + (1 + x) ħ/2`. -/
theorem total_gf (hh : 0 < hbar) (mu : ℕ → ℝ) (cov : ℕ → ℕ → ℝ) (hph : Physical (phase N N cov) hbar) (ρ : (Fin N → ℕ) → (Fin N → ℕ) → ℂ) (hρ : IsFockMatrix N mu cov hbar ρ) (x : ℝ) (h0 : 0 ≤ x) (h1 : x ≤ 1) :
    HasSum (fun n : Fin N → ℕ => x ^ (∑ k, n k) * (ρ n n).re)
      (Real.exp (-((1 - x) * (phaseVec N mu ⬝ᵥ ((1 - x) • phase N N cov + ((1 + x) * hbar / 2) • 1)⁻¹ *ᵥ phaseVec N mu)) / 2) /
        Real.sqrt ((1 / hbar) • ((1 - x) • phase N N cov + ((1 + x) * hbar / 2) • 1)).det) ∧ 0 < ((1 / hbar) • ((1 - x) • phase N N cov + ((1 + x) * hbar / 2) • 1)).det := by
  have hD : lossD (fun _ : Fin N => 1 - x) = Real.sqrt (1 - x) • 1 := by
    rw [lossD]
    ext p q
    rcases p with p | p <;> rcases q with q | q <;> simp [diagonal_apply, Matrix.one_apply]
  obtain ⟨mu', hmu'⟩ := exists_phaseVec (N := N) (lossD (fun _ : Fin N => 1 - x) *ᵥ phaseVec N mu)
  obtain ⟨cov', hcov'⟩ := exists_cov (N := N) (lossD (fun _ : Fin N => 1 - x) * phase N N cov * lossD (fun _ : Fin N => 1 - x) + (hbar / 2) • (1 - lossD (fun _ : Fin N => 1 - x) * lossD (fun _ : Fin N => 1 - x)))
  obtain ⟨hp', hs⟩ := lossy_induction hh mu cov hph ρ hρ Finset.univ (fun _ => 1 - x) (fun _ => by linarith) (fun _ => by linarith) (fun k hk => absurd (Finset.mem_univ k) hk) mu' cov' hmu' hcov'
  obtain ⟨ρ', _, _, -, hρ', -⟩ := fock_gram mu' hh hp'
  have h := hs ρ' hρ' 0
  have hsq : Real.sqrt (1 - x) * Real.sqrt (1 - x) = 1 - x := Real.mul_self_sqrt (by linarith)
  have hW : phase N N cov' + (hbar / 2) • 1 = (1 - x) • phase N N cov + ((1 + x) * hbar / 2) • 1 := by
    rw [hcov', hD]
    simp only [Matrix.smul_mul, Matrix.mul_smul, Matrix.one_mul, Matrix.mul_one, smul_smul, hsq]
    module
  have hm : phaseVec N mu' = Real.sqrt (1 - x) • phaseVec N mu := by rw [hmu', hD, Matrix.smul_mulVec, Matrix.one_mulVec]
  have hv := (fockMatrix_vacuum hh hp' hρ').1
  have hq : cohQuad hbar (0 : Fin N → ℂ) = 0 := by
    funext p; rcases p with p | p <;> simp [cohQuad]
  refine ⟨hs_eq h (fun n => ?_) ?_, ?_⟩
  · simp only [Pi.zero_apply, survive_zero, Finset.prod_pow_eq_pow_sum, sub_sub_cancel]
  · rw [hv, Complex.ofReal_re, husimiFn]
    rw [hW, hq, hm, zero_sub]
    congr 2
    simp only [Matrix.mulVec_neg, Matrix.mulVec_smul, dotProduct_neg, neg_dotProduct, dotProduct_smul, smul_dotProduct, smul_eq_mul, neg_neg]
    linear_combination (phaseVec N mu ⬝ᵥ ((1 - x) • phase N N cov + ((1 + x) * hbar / 2) • 1)⁻¹ *ᵥ phaseVec N mu) / 2 * hsq
  · rw [← hW]
    exact det_W_pos hp' hh

/-- the same for the matrix `A` of a pure state: `det(W/ħ) = det Q Π (1 - x² σ_i²)`, `σ` the singular values of the upper left block of `A` -/
theorem pure_gf_det (hh : 0 < hbar) (cov : ℕ → ℕ → ℝ) (hph : Physical (phase N N cov) hbar) (hpure : ((2 / hbar) • phase N N cov).det = 1) (A : ℕ → ℕ → ℂ) (hA : Amat N cov hbar = .ok A)
    (U V : Matrix (Fin N) (Fin N) ℂ) (d : Fin N → ℝ) (hU : U ∈ unitaryGroup (Fin N) ℂ) (hV : V ∈ unitaryGroup (Fin N) ℂ) (hB : U * diagonal (fun i => (d i : ℂ)) * V = toMatrix N N A) (x : ℝ) :
    ((1 / hbar) • ((1 - x) • phase N N cov + ((1 + x) * hbar / 2) • 1)).det = (Wmat N cov hbar).det * ∏ i, (1 - x ^ 2 * d i ^ 2) := by
  have hsym := physical_sym hph
  have hdet := det_W_pos hph hh
  have hQdet : (phase N N (Qmat N cov hbar)).det ≠ 0 := by rw [det_Q hsym hh, Complex.ofReal_ne_zero]; exact hdet.ne'
  obtain ⟨A', hA', hAt, hAb, hAQ, -⟩ := Amat_correct N cov hbar hsym hQdet
  have : A' = A := by rw [hA] at hA'; injection hA' with h; exact h.symm
  subst this
  have hbl := pure_block hph hh hpure A' hAQ
  have hne : hbar ≠ 0 := hh.ne'
  -- the real matrix
  have e1 : (1 / hbar) • ((1 - x) • phase N N cov + ((1 + x) * hbar / 2) • 1) = (1 - x) • Wmat N cov hbar + x • 1 := by
    rw [Wmat]
    ext p q
    simp only [Matrix.smul_apply, Matrix.add_apply, smul_eq_mul]
    field_simp
    ring
  have e2 : ((1 - x : ℝ) : ℂ) • phase N N (Qmat N cov hbar) + (x : ℂ) • 1 = phase N N (Qmat N cov hbar) * (1 - (x : ℂ) • (phase N N A' * phase N N (Xmat N))) := by
    rw [hAQ, Matrix.mul_sub, Matrix.mul_one, Matrix.mul_smul, Matrix.mul_sub, Matrix.mul_one, Matrix.mul_nonsing_inv _ (isUnit_iff_ne_zero.mpr hQdet)]
    push_cast
    module
  have e3 : (((1 - x) • Wmat N cov hbar + x • 1).det : ℂ) = (((1 - x : ℝ) : ℂ) • phase N N (Qmat N cov hbar) + (x : ℂ) • 1).det := by
    have h := Q_mul_U (cov := cov) hsym hh
    have hm : (((1 - x : ℝ) : ℂ) • phase N N (Qmat N cov hbar) + (x : ℂ) • 1) * Um N = Um N * ((1 - x) • Wmat N cov hbar + x • (1 : Matrix (Fin N ⊕ Fin N) (Fin N ⊕ Fin N) ℝ)).map Complex.ofReal := by
      have : ((1 - x) • Wmat N cov hbar + x • (1 : Matrix (Fin N ⊕ Fin N) (Fin N ⊕ Fin N) ℝ)).map Complex.ofReal = ((1 - x : ℝ) : ℂ) • (Wmat N cov hbar).map Complex.ofReal + (x : ℂ) • 1 := by
        ext p q
        simp only [Matrix.map_apply, Matrix.add_apply, Matrix.smul_apply, smul_eq_mul, Complex.ofReal_add, Complex.ofReal_mul, Matrix.one_apply]
        split_ifs <;> simp
      rw [this, Matrix.add_mul, Matrix.smul_mul, h, Matrix.mul_add, Matrix.mul_smul, Matrix.smul_mul, Matrix.mul_smul, Matrix.one_mul, Matrix.mul_one]
    have hdu : (Um N).det ≠ 0 := by
      intro h0
      have := congrArg Matrix.det (U_conj (N := N))
      rw [Matrix.det_mul, h0, mul_zero, Matrix.det_smul, Matrix.det_one] at this
      exact absurd this.symm (by simp)
    have hd := congrArg Matrix.det hm
    rw [Matrix.det_mul, Matrix.det_mul, mul_comm (Um N).det] at hd
    have hd' := mul_right_cancel₀ hdu hd
    rw [hd']
    exact (Complex.ofRealHom.map_det _)
  have e4 : phase N N A' * phase N N (Xmat N) = fromBlocks 0 (toMatrix N N A') ((toMatrix N N A').map (starRingEnd ℂ)) 0 := by
    have : phase N N A' = fromBlocks (toMatrix N N A') 0 0 ((toMatrix N N A').map (starRingEnd ℂ)) := by
      rw [phase_fromBlocks]
      congr 1 <;> ext i j
      · exact (hbl i i.2 j j.2).1
      · exact (hbl i i.2 j j.2).2
      · exact (hAb i i.2 j j.2).1
    rw [this, phase_Xmat, fromBlocks_multiply]
    simp
  have hBt : (toMatrix N N A')ᵀ = toMatrix N N A' := by
    ext i j
    exact congrFun (congrFun hAt (Sum.inl i)) (Sum.inl j)
  have e5 : (1 - (x : ℂ) • (phase N N A' * phase N N (Xmat N))).det = ((∏ i, (1 - x ^ 2 * d i ^ 2) : ℝ) : ℂ) := by
    have : (1 : Matrix (Fin N ⊕ Fin N) (Fin N ⊕ Fin N) ℂ) - (x : ℂ) • (phase N N A' * phase N N (Xmat N)) = fromBlocks 1 (-((x : ℂ) • toMatrix N N A')) (-((x : ℂ) • (toMatrix N N A').map (starRingEnd ℂ))) 1 := by
      rw [e4, fromBlocks_smul, ← fromBlocks_one, sub_eq_add_neg, fromBlocks_neg, fromBlocks_add]
      simp
    rw [this, det_fromBlocks_one₂₂]
    have hc : (toMatrix N N A').map (starRingEnd ℂ) = (toMatrix N N A')ᴴ := by
      nth_rw 1 [← hBt]; rfl
    have hVV : V * Vᴴ = 1 := (Matrix.mem_unitaryGroup_iff).mp hV
    have hUU : U * Uᴴ = 1 := (Matrix.mem_unitaryGroup_iff).mp hU
    have hBB : toMatrix N N A' * (toMatrix N N A')ᴴ = U * diagonal (fun i => ((d i ^ 2 : ℝ) : ℂ)) * Uᴴ := by
      rw [← hB, conjTranspose_mul, conjTranspose_mul, diagonal_conjTranspose]
      calc _ = U * diagonal (fun i => (d i : ℂ)) * (V * Vᴴ) * (diagonal (star fun i => (d i : ℂ)) * Uᴴ) := by simp only [Matrix.mul_assoc]
        _ = _ := by
          rw [hVV, Matrix.mul_one, Matrix.mul_assoc U, ← Matrix.mul_assoc (diagonal _), diagonal_mul_diagonal, ← Matrix.mul_assoc]
          congr 2; congr 1; funext i
          simp [pow_two]
    have : (1 : Matrix (Fin N) (Fin N) ℂ) - -((x : ℂ) • toMatrix N N A') * -((x : ℂ) • (toMatrix N N A').map (starRingEnd ℂ)) = U * diagonal (fun i => ((1 - x ^ 2 * d i ^ 2 : ℝ) : ℂ)) * Uᴴ := by
      rw [Matrix.neg_mul, Matrix.mul_neg, neg_neg, Matrix.smul_mul, Matrix.mul_smul, smul_smul, hc, hBB]
      have hdg : diagonal (fun i => ((1 - x ^ 2 * d i ^ 2 : ℝ) : ℂ)) = 1 - ((x : ℂ) * x) • diagonal (fun i => ((d i ^ 2 : ℝ) : ℂ)) := by
        ext i j
        by_cases hij : i = j
        · subst hij; simp [pow_two]
        · simp [hij]
      rw [hdg, Matrix.mul_sub, Matrix.sub_mul, Matrix.mul_one, hUU, Matrix.mul_smul, Matrix.smul_mul]
    rw [this, det_mul, det_mul, det_diagonal, mul_comm U.det, mul_assoc, ← det_mul, hUU, det_one, mul_one]
    push_cast
    rfl
  have := e3
  rw [e2, det_mul, e5, det_Q hsym hh, ← Complex.ofReal_mul] at this
  rw [e1]
  exact_mod_cast this

/-- the singular values of the matrix of a pure state are below 1, and the generating function is a product over them -/
theorem pure_gf (hh : 0 < hbar) (mu : ℕ → ℝ) (hmu : ∀ i < 2 * N, mu i = 0) (cov : ℕ → ℕ → ℝ) (hph : Physical (phase N N cov) hbar) (ρ : (Fin N → ℕ) → (Fin N → ℕ) → ℂ) (hρ : IsFockMatrix N mu cov hbar ρ) (d : Fin N → ℝ)
    (hd : ∀ i, 0 ≤ d i) (D : ℝ) (hdet : ∀ x : ℝ, ((1 / hbar) • ((1 - x) • phase N N cov + ((1 + x) * hbar / 2) • 1)).det = D * ∏ i, (1 - x ^ 2 * d i ^ 2)) :
    (∀ i, d i < 1) ∧ ∀ x : ℝ, 0 ≤ x → x ≤ 1 → HasSum (fun n : Fin N → ℕ => x ^ (∑ k, n k) * (ρ n n).re) (∏ i, (1 - d i ^ 2) ^ (1 / 2 : ℝ) / (1 - x ^ 2 * d i ^ 2) ^ (1 / 2 : ℝ)) := by
  have hpos : ∀ x : ℝ, 0 ≤ x → x ≤ 1 → 0 < D * ∏ i, (1 - x ^ 2 * d i ^ 2) := fun x h0 h1 => by
    rw [← hdet x]; exact (total_gf hh mu cov hph ρ hρ x h0 h1).2
  have hd1 : ∀ i, d i < 1 := by
    intro i
    by_contra hi
    push Not at hi
    have hi0 : 0 < d i := by linarith
    have := hpos (1 / d i) (by positivity) ((div_le_one hi0).mpr hi)
    rw [Finset.prod_eq_zero (Finset.mem_univ i) (by field_simp; ring), mul_zero] at this
    exact lt_irrefl _ this
  have hd2 : ∀ i, d i ^ 2 < 1 := fun i => by
    have := hd i; have := hd1 i; nlinarith
  have hone : D * ∏ i, (1 - d i ^ 2) = 1 := by
    have h := hdet 1
    have e : (1 / hbar) • ((1 - 1 : ℝ) • phase N N cov + ((1 + 1) * hbar / 2) • (1 : Matrix (Fin N ⊕ Fin N) (Fin N ⊕ Fin N) ℝ)) = 1 := by
      rw [sub_self, zero_smul, zero_add, smul_smul]
      have : 1 / hbar * ((1 + 1) * hbar / 2) = 1 := by field_simp; norm_num
      rw [this, one_smul]
    rw [e, det_one] at h
    simpa using h.symm
  refine ⟨hd1, fun x h0 h1 => ?_⟩
  have h := (total_gf hh mu cov hph ρ hρ x h0 h1).1
  have hv : phaseVec N mu = 0 := funext fun p => hmu _ (quad_lt N p)
  have hx2 : ∀ i, 0 < 1 - x ^ 2 * d i ^ 2 := fun i => by
    have h2 : x ^ 2 ≤ 1 := pow_le_one₀ h0 h1
    have := mul_le_of_le_one_left (sq_nonneg (d i)) h2
    have := hd2 i
    linarith
  have hP : 0 < ∏ i, (1 - d i ^ 2) := Finset.prod_pos fun i _ => by have := hd2 i; linarith
  refine hs_eq h (fun _ => rfl) ?_
  rw [hv, zero_dotProduct, mul_zero, neg_zero, zero_div, Real.exp_zero, hdet x, Finset.prod_div_distrib, Real.finsetProd_rpow _ _ fun i _ => by have := hd2 i; linarith,
    Real.finsetProd_rpow _ _ fun i _ => (hx2 i).le, ← Real.sqrt_eq_rpow, ← Real.sqrt_eq_rpow]
  have hD : D = 1 / ∏ i, (1 - d i ^ 2) := by field_simp; exact hone
  rw [hD, one_div_mul_eq_div, Real.sqrt_div' _ hP.le, one_div_div]

/-- **C85** `pure_state_distribution` (photon_number_distributions.py:26-49) of a pure state with zero mean (`hbar = 2`): entry `k` is the probability of `k` photons in total, the sum of `⟨n|ρ|n⟩` over
the occupation numbers `n` with `|n| = k`. -/
theorem pureStateDistribution_correct (svd : ℕ → CArr → CArr × (ℕ → ℝ) × CArr) (hsvd : SvdContract svd) (close : ℝ → ℝ → Bool) (atol : ℝ) (cov : ℕ → ℕ → ℝ)
    (hchk : Checks.isPureCov close (2 * N) (2 * N) cov 2 atol = true) (hph : Physical (phase N N cov) 2) (hpure : ((2 / 2 : ℝ) • phase N N cov).det = 1) (cutoff padding : ℕ) (hc : 0 < cutoff) (hp : 0 < padding) :
    ∃ f, pureStateDistribution svd close atol N cov cutoff 2 padding = .ok f ∧ ∀ (mu : ℕ → ℝ), (∀ i < 2 * N, mu i = 0) → ∀ ρ, IsFockMatrix N mu cov 2 ρ → ∀ k < cutoff, f k = ∑ n ∈ Finset.piAntidiag Finset.univ k, (ρ n n).re := by
  have hh : (0 : ℝ) < 2 := by norm_num
  have hsym := physical_sym hph
  have hQdet : (phase N N (Qmat N cov 2)).det ≠ 0 := by rw [det_Q hsym hh, Complex.ofReal_ne_zero]; exact (det_W_pos hph hh).ne'
  obtain ⟨A, hA, -⟩ := Amat_correct N cov 2 hsym hQdet
  obtain ⟨hU, hV, hd, -, hB⟩ := hsvd N A
  obtain ⟨f, hf, hval⟩ := convolveSqueezed_value ((List.range N).map fun i => Real.artanh ((svd N A).2.1 i)) cutoff padding hc hp
  refine ⟨f, ?_, fun mu hmu ρ hρ k hk => ?_⟩
  · rw [pureStateDistribution, if_pos hchk, hA]
    exact hf
  rw [hval k (hk.trans_le (Nat.le_mul_of_pos_left cutoff hp))]
  obtain ⟨hd1, hg⟩ := pure_gf hh mu hmu cov hph ρ hρ (fun i => (svd N A).2.1 i) (fun i => hd i i.2) _ fun x => pure_gf_det hh cov hph hpure A hA _ _ (fun i : Fin N => (svd N A).2.1 i) hU hV hB x
  have hth : ∀ i : Fin N, Real.tanh (Real.artanh ((svd N A).2.1 i)) = (svd N A).2.1 i := fun i => Real.tanh_artanh ⟨by have := hd i i.2; linarith, hd1 i⟩
  refine congrFun (coeff_unique (G := fun x => ∏ i : Fin N, (1 - (svd N A).2.1 i ^ 2) ^ (1 / 2 : ℝ) / (1 - x ^ 2 * (svd N A).2.1 i ^ 2) ^ (1 / 2 : ℝ)) (fun x h0 h1 => ?_) fun x h0 h1 => hasSum_total (hg x h0.le h1.le)) k
  have h := sqTotal_hasSum ((List.range N).map fun i => Real.artanh ((svd N A).2.1 i)) x (abs_le.mpr ⟨by linarith, h1.le⟩)
  refine hs_eq h (fun _ => rfl) ?_
  rw [List.map_map, ← List.prod_toFinset _ List.nodup_range, List.toFinset_range, Finset.prod_range]
  refine Finset.prod_congr rfl fun i _ => ?_
  rw [Function.comp_apply, hth i]

/-- **C85** a covariance matrix that does not pass the purity check is rejected -/
theorem pureStateDistribution_raises (svd : ℕ → CArr → CArr × (ℕ → ℝ) × CArr) (close : ℝ → ℝ → Bool) (atol : ℝ) (cov : ℕ → ℕ → ℝ) (hchk : Checks.isPureCov close (2 * N) (2 * N) cov 2 atol = false) (cutoff padding : ℕ) (hbar : ℝ) :
    pureStateDistribution svd close atol N cov cutoff hbar padding = .error .valueError := by
  rw [pureStateDistribution, hchk]; rfl

/-- **C85** (finding) the purity check ignores `hbar`: the vacuum for `hbar = 1` is rejected. -/
theorem pureStateDistribution_hbar (svd : ℕ → CArr → CArr × (ℕ → ℝ) × CArr) (close : ℝ → ℝ → Bool) (hc : ∀ x y, close x y = true ↔ x = y) (cutoff padding : ℕ) :
    pureStateDistribution svd close 0 1 (vacuumState 1 1).cov cutoff 1 padding = .error .valueError ∧ Physical (phase 1 1 (vacuumState 1 (1 : ℝ)).cov) 1 ∧ ((2 / 1 : ℝ) • phase 1 1 (vacuumState 1 (1 : ℝ)).cov).det = 1 := by
  have hV : phase 1 1 (vacuumState 1 (1 : ℝ)).cov = (1 / 2 : ℝ) • 1 := by
    ext p q
    rcases p with p | p <;> rcases q with q | q <;> simp [phase, vacuumState, eye, quad, Matrix.one_apply] <;> exact Subsingleton.elim _ _
  refine ⟨pureStateDistribution_raises svd close 0 _ ?_ cutoff padding 1, (physical_vacuum 1 1 (by norm_num)).1, ?_⟩
  · rw [Bool.eq_false_iff]
    intro h
    obtain ⟨-, M, hM, -, hdet⟩ := (isPureCov_exact close hc (2 * 1) (2 * 1) _ 2).mp h
    have : M = 1 := by omega
    subst this
    rw [hV, smul_smul, det_smul, det_one] at hdet
    norm_num at hdet
  · rw [hV, smul_smul, det_smul, det_one]
    norm_num

/-- the hypotheses of `pureStateDistribution_correct` are met by the two-mode vacuum squeezed by any symplectic matrix -/
example (S : Matrix (Fin 2 ⊕ Fin 2) (Fin 2 ⊕ Fin 2) ℝ) (hS : S ∈ symplecticGroup (Fin 2) ℝ) (close : ℝ → ℝ → Bool) (hc : ∀ x y, close x y = true ↔ x = y) : ∃ cov : ℕ → ℕ → ℝ, phase 2 2 cov = S * Sᵀ ∧
    Checks.isPureCov close (2 * 2) (2 * 2) cov 2 0 = true ∧ Physical (phase 2 2 cov) 2 ∧ ((2 / 2 : ℝ) • phase 2 2 cov).det = 1 := by
  obtain ⟨cov, hcov⟩ := exists_cov (N := 2) (S * Sᵀ)
  have hdet : ((2 / 2 : ℝ) • phase 2 2 cov).det = 1 := by
    rw [hcov, div_self (by norm_num), one_smul, det_mul, det_transpose, SymplecticGroup.det_eq_one hS, one_mul]
  have hph : Physical (phase 2 2 cov) 2 := by
    have h := physical_symplectic (1 : Matrix (Fin 2 ⊕ Fin 2) (Fin 2 ⊕ Fin 2) ℝ) S 2 (by have := physical_one (N := 2) (hbar := 2) (by norm_num); simpa using this) hS
    rw [Matrix.mul_one] at h
    rw [hcov]; exact h
  exact ⟨cov, hcov, (isPureCov_exact close hc (2 * 2) (2 * 2) cov 2).mpr ⟨rfl, 2, rfl, hph, hdet⟩, hph, hdet⟩

/-- the generating function of the lossy squeezed states as a power -/
theorem lossy_det (s y : ℝ) (hy0 : 0 ≤ y) (hy1 : y ≤ 1) : ((1 - y) * Real.exp (-2 * s) + (1 + y)) / 2 * (((1 - y) * Real.exp (2 * s) + (1 + y)) / 2) = (1 - y ^ 2 * Real.tanh s ^ 2) / (1 - Real.tanh s ^ 2) := by
  have h1 : Real.exp (-2 * s) * Real.exp (2 * s) = 1 := by rw [← Real.exp_add]; simp
  have h2 : Real.exp (2 * s) + Real.exp (-2 * s) = 2 * (Real.cosh s ^ 2 + Real.sinh s ^ 2) := by
    rw [← Real.cosh_two_mul, Real.cosh_eq, show -(2 * s) = -2 * s by ring]; ring
  have h3 := Real.cosh_sq s
  have hc := (Real.cosh_pos s).ne'
  rw [one_sub_tanh_sq, Real.tanh_eq_sinh_div_cosh]
  have e : (1 - y ^ 2 * (Real.sinh s / Real.cosh s) ^ 2) / (1 / Real.cosh s) ^ 2 = Real.cosh s ^ 2 - y ^ 2 * Real.sinh s ^ 2 := by field_simp
  rw [e]
  linear_combination (1 - y) ^ 2 / 4 * h1 + (1 - y) * (1 + y) / 4 * h2 + (-(1 + y ^ 2) / 2 : ℝ) * h3

/-- squeezed vacua behind a passive transformation are a physical state -/
theorem squeezed_physical (hh : 0 < hbar) (cov : ℕ → ℕ → ℝ) (s : ℝ) (O : Matrix (Fin N ⊕ Fin N) (Fin N ⊕ Fin N) ℝ) (hOs : O ∈ symplecticGroup (Fin N) ℝ)
    (hcov : phase N N cov = (hbar / 2) • (O * diagonal (Sum.elim (fun _ => Real.exp (-2 * s)) fun _ => Real.exp (2 * s)) * Oᵀ)) : Physical (phase N N cov) hbar := by
  have hD : fromBlocks (diagonal fun _ : Fin N => Real.exp (-s)) 0 0 (diagonal fun _ : Fin N => Real.exp s) ∈ symplecticGroup (Fin N) ℝ := by
    refine symp_diag _ _ ?_
    rw [diagonal_transpose, diagonal_mul_diagonal, ← diagonal_one]
    congr 1; funext i
    rw [← Real.exp_add]; simp
  refine (symp_physical (S := O * fromBlocks (diagonal fun _ : Fin N => Real.exp (-s)) 0 0 (diagonal fun _ : Fin N => Real.exp s)) hh (mul_mem hOs hD) ?_).1
  rw [hcov, transpose_mul, fromBlocks_diagonal, diagonal_transpose]
  congr 1
  rw [Matrix.mul_assoc O (diagonal _) (diagonal _ * Oᵀ), ← Matrix.mul_assoc (diagonal _) (diagonal _), diagonal_mul_diagonal, ← Matrix.mul_assoc]
  congr 3
  funext p
  rcases p with p | p <;> simp only [Sum.elim_inl, Sum.elim_inr, ← Real.exp_add] <;> congr 1 <;> ring

/-- **C86** `total_photon_number_distribution(n, k, s, eta)` (photon_number_distributions.py:97-132): the probability of `n` photons in total in the state obtained from `k` vacua squeezed by `s`, sent through a
passive transformation `O` (for instance none) and then through losses of transmission `eta` in every mode. -/
theorem totalPhotonNumberDistribution_correct (hN : 0 < N) (hh : 0 < hbar) (st : GState ℝ) (hs : st.len = 2 * N) (hmu : ∀ i < 2 * N, st.mu i = 0) (s : ℝ) (O : Matrix (Fin N ⊕ Fin N) (Fin N ⊕ Fin N) ℝ)
    (hO : O * Oᵀ = 1) (hOs : O ∈ symplecticGroup (Fin N) ℝ) (hcov : phase N N st.cov = (hbar / 2) • (O * diagonal (Sum.elim (fun _ => Real.exp (-2 * s)) fun _ => Real.exp (2 * s)) * Oᵀ)) (eta : ℝ) (h0 : 0 ≤ eta) (h1 : eta ≤ 1)
    (T : ℕ → ℕ → ℂ) (hT : ∀ i j : Fin N, T i j = if i = j then (Real.sqrt eta : ℂ) else 0) :
    ∃ r, passiveTransformation st N N T hbar = .ok r ∧ Physical (phase N N r.cov) hbar ∧ ∀ ρ, IsFockMatrix N r.mu r.cov hbar ρ → ∀ (n : ℕ) (pref : ℝ),
      totalPhotonNumberDistribution n N s eta pref = pref ^ n * ∑ m ∈ Finset.piAntidiag Finset.univ n, (ρ m m).re := by
  have hne := hh.ne'
  have hph : Physical (phase N N st.cov) hbar := squeezed_physical hh st.cov s O hOs hcov
  obtain ⟨ρ₀, _, _, -, hρ₀, -⟩ := fock_gram st.mu hh hph
  obtain ⟨r, hr, hphr, -⟩ := passive_loss_photons hh st hs hph (fun _ => eta) (fun _ => h0) (fun _ => h1) ρ₀ hρ₀ T hT
  obtain ⟨r', hr', -, hm, hc⟩ := passive_phase st N N T hbar hs
  have : r' = r := by rw [hr] at hr'; injection hr' with h; exact h.symm
  subst this
  have hD : phase N N (Symp.interferometer N N T) = Real.sqrt eta • 1 := by
    rw [phase_interferometer]
    ext p q
    rcases p with p | p <;> rcases q with q | q <;> simp only [fromBlocks_apply₁₁, fromBlocks_apply₁₂, fromBlocks_apply₂₁, fromBlocks_apply₂₂, toMatrix, of_apply, hT, Matrix.neg_apply, Matrix.smul_apply, Matrix.one_apply, Sum.inl.injEq,
      Sum.inr.injEq, reduceCtorEq, if_false] <;> split_ifs <;> simp
  have hsq : Real.sqrt eta * Real.sqrt eta = eta := Real.mul_self_sqrt h0
  have hcr : phase N N r'.cov = eta • phase N N st.cov + ((1 - eta) * hbar / 2) • 1 := by
    rw [hc, hD]
    simp only [transpose_smul, transpose_one, Matrix.smul_mul, Matrix.mul_smul, Matrix.one_mul, Matrix.mul_one, smul_smul, hsq]
    module
  have hmr : phaseVec N r'.mu = 0 := by
    have hv : phaseVec N st.mu = 0 := funext fun p => hmu _ (quad_lt N p)
    rw [hm, hv, mulVec_zero]
  refine ⟨r', hr, hphr, fun ρ hρ n pref => ?_⟩
  rw [total_survive n N hN]
  congr 1
  have ht : Real.tanh s ^ 2 < 1 := by
    rw [sq_lt_one_iff_abs_lt_one]
    exact abs_lt.mpr ⟨Real.neg_one_lt_tanh s, Real.tanh_lt_one s⟩
  have hr0 : (0 : ℝ) < N / 2 := by positivity
  refine congrFun (coeff_unique (G := fun x => (1 - Real.tanh s ^ 2) ^ (N / 2 : ℝ) / (1 - (1 - eta + eta * x) ^ 2 * Real.tanh s ^ 2) ^ (N / 2 : ℝ))
    (fun x hx0 hx1 => (lossySq_hasSum (Real.tanh s) (N / 2) hr0 ht h0 h1 hx0.le hx1.le).2) fun x hx0 hx1 => hasSum_total (hs_eq (total_gf hh r'.mu r'.cov hphr ρ hρ x hx0.le hx1.le).1 (fun _ => rfl) ?_)) n
  rw [hmr, zero_dotProduct, mul_zero, neg_zero, zero_div, Real.exp_zero]
  have hy0 : 0 ≤ 1 - eta + eta * x := by nlinarith
  have hy1 : 1 - eta + eta * x ≤ 1 := by nlinarith
  have hW : (1 / hbar) • ((1 - x) • phase N N r'.cov + ((1 + x) * hbar / 2) • 1) = O * diagonal (Sum.elim (fun _ => ((1 - (1 - eta + eta * x)) * Real.exp (-2 * s) + (1 + (1 - eta + eta * x))) / 2)
      fun _ => ((1 - (1 - eta + eta * x)) * Real.exp (2 * s) + (1 + (1 - eta + eta * x))) / 2) * Oᵀ := by
    have hd : diagonal (Sum.elim (fun _ : Fin N => ((1 - (1 - eta + eta * x)) * Real.exp (-2 * s) + (1 + (1 - eta + eta * x))) / 2)
      fun _ : Fin N => ((1 - (1 - eta + eta * x)) * Real.exp (2 * s) + (1 + (1 - eta + eta * x))) / 2) =
        (eta * (1 - x) / 2) • diagonal (Sum.elim (fun _ : Fin N => Real.exp (-2 * s)) fun _ : Fin N => Real.exp (2 * s)) + ((2 - eta + eta * x) / 2) • 1 := by
      ext p q
      by_cases hpq : p = q
      · subst hpq
        rcases p with p | p <;> simp <;> ring
      · simp [hpq]
    rw [hcr, hcov, hd, Matrix.mul_add, Matrix.add_mul, Matrix.mul_smul, Matrix.mul_smul, Matrix.smul_mul, Matrix.smul_mul, Matrix.mul_one, hO]
    generalize O * diagonal (Sum.elim (fun _ : Fin N => Real.exp (-2 * s)) fun _ : Fin N => Real.exp (2 * s)) * Oᵀ = Z
    ext p q
    simp only [Matrix.smul_apply, Matrix.add_apply, smul_eq_mul]
    field_simp
    ring
  have hdet : (O * diagonal (Sum.elim (fun _ : Fin N => ((1 - (1 - eta + eta * x)) * Real.exp (-2 * s) + (1 + (1 - eta + eta * x))) / 2)
      fun _ : Fin N => ((1 - (1 - eta + eta * x)) * Real.exp (2 * s) + (1 + (1 - eta + eta * x))) / 2) * Oᵀ).det = ((1 - (1 - eta + eta * x) ^ 2 * Real.tanh s ^ 2) / (1 - Real.tanh s ^ 2)) ^ N := by
    rw [det_mul, det_mul, mul_comm O.det, mul_assoc, ← det_mul, hO, det_one, mul_one, det_diagonal, Fintype.prod_sum_type]
    simp only [Sum.elim_inl, Sum.elim_inr, Finset.prod_const, Finset.card_univ, Fintype.card_fin]
    rw [← mul_pow, lossy_det s _ hy0 hy1]
  rw [hW, hdet]
  have hA : 0 < 1 - Real.tanh s ^ 2 := by linarith
  have hB : 0 < 1 - (1 - eta + eta * x) ^ 2 * Real.tanh s ^ 2 := by
    have := mul_le_of_le_one_left (sq_nonneg (Real.tanh s)) (pow_le_one₀ hy0 hy1 : (1 - eta + eta * x) ^ 2 ≤ 1)
    linarith
  have hpow : ∀ z : ℝ, 0 < z → Real.sqrt (z ^ N) = z ^ (N / 2 : ℝ) := fun z hz => by
    rw [Real.sqrt_eq_rpow, ← Real.rpow_natCast, ← Real.rpow_mul hz.le]
    congr 1; ring
  rw [hpow _ (div_pos hB hA), Real.div_rpow hB.le hA.le, one_div_div]

/-- the loop of `characteristic_function` adds up terms until the criterion is met or `max_iter` is reached -/
theorem characteristicLoop_spec (term : ℕ → ℝ) (h0 : ∀ i, 0 ≤ term i) (maxIter : ℕ) (delta : ℝ) : ∀ (fuel i : ℕ) (prev : ℝ), 1 ≤ i → prev = term (i - 1) → maxIter ≤ fuel + i →
    ∃ I, characteristicLoop term maxIter delta fuel i (∑ j ∈ Finset.range i, term j) prev = ∑ j ∈ Finset.range I, term j ∧ i ≤ I ∧ I ≤ max i maxIter ∧
      (I < maxIter → 2 ≤ I ∧ term (I - 1) + term (I - 2) < delta * ∑ j ∈ Finset.range (I - 1), term j) := by
  intro fuel
  induction fuel with
  | zero =>
    intro i prev hi hp hf
    exact ⟨i, rfl, le_rfl, le_max_left _ _, fun h => by omega⟩
  | succ fuel ih =>
    intro i prev hi hp hf
    rw [characteristicLoop]
    by_cases hlt : i < maxIter
    · rw [if_pos hlt]
      have hrec := ih (i + 1) (term i) (by omega) (by simp) (by omega)
      rw [Finset.sum_range_succ] at hrec
      obtain ⟨I, e1, e2, e3, e4⟩ := hrec
      have hI : I ≤ max i maxIter := e3.trans (max_le (le_max_of_le_right hlt) (le_max_right _ _))
      by_cases hz : ∑ j ∈ Finset.range i, term j = 0
      · rw [if_pos hz]
        exact ⟨I, e1, by omega, hI, e4⟩
      · rw [if_neg hz]
        by_cases hr : (term i + prev) / ∑ j ∈ Finset.range i, term j < delta
        · rw [if_pos hr]
          refine ⟨i + 1, (Finset.sum_range_succ _ _).symm, by omega, le_max_of_le_right hlt, fun _ => ⟨by omega, ?_⟩⟩
          have hpos : 0 < ∑ j ∈ Finset.range i, term j := lt_of_le_of_ne (Finset.sum_nonneg fun j _ => h0 j) (Ne.symm hz)
          rw [div_lt_iff₀ hpos] at hr
          rw [hp] at hr
          simpa using hr
        · rw [if_neg hr]
          exact ⟨I, e1, by omega, hI, e4⟩
    · rw [if_neg hlt]
      exact ⟨i, rfl, le_rfl, le_max_left _ _, fun h => by omega⟩

/-- **C86** `characteristic_function(k, s, eta, mu, max_iter, delta, poly_corr)` (photon_number_distributions.py:135-185): with `p(n)` the probability of `n` photons in total in the state of
`totalPhotonNumberDistribution_correct` and `f(n) = n^poly_corr`, it is a partial sum of `⟨f(n) exp(mu n)⟩ = Σ_n f(n) exp(mu n) p(n)` with at most `max_iter` terms; it has fewer terms only if the last two of them are together
smaller than `delta` times the sum before; it never exceeds the exact value. -/
theorem characteristicFunction_correct (hN : 0 < N) (hh : 0 < hbar) (st : GState ℝ) (hs : st.len = 2 * N) (hmu : ∀ i < 2 * N, st.mu i = 0) (s : ℝ) (O : Matrix (Fin N ⊕ Fin N) (Fin N ⊕ Fin N) ℝ)
    (hO : O * Oᵀ = 1) (hOs : O ∈ symplecticGroup (Fin N) ℝ) (hcov : phase N N st.cov = (hbar / 2) • (O * diagonal (Sum.elim (fun _ => Real.exp (-2 * s)) fun _ => Real.exp (2 * s)) * Oᵀ)) (eta : ℝ) (h0 : 0 ≤ eta) (h1 : eta ≤ 1)
    (T : ℕ → ℕ → ℂ) (hT : ∀ i j : Fin N, T i j = if i = j then (Real.sqrt eta : ℂ) else 0) :
    ∃ r, passiveTransformation st N N T hbar = .ok r ∧ ∀ ρ, IsFockMatrix N r.mu r.cov hbar ρ → ∀ (mu : ℝ) (maxIter : ℕ) (delta : ℝ) (m : Option ℕ), ∀ t : ℕ → ℝ,
      (∀ i : ℕ, t i = (i : ℝ) ^ (m.getD 0) * Real.exp (mu * i) * ∑ n ∈ Finset.piAntidiag Finset.univ i, (ρ n n).re) →
      (∃ I, characteristicFunction N s eta mu maxIter delta m = ∑ i ∈ Finset.range I, t i ∧ 1 ≤ I ∧ I ≤ max 1 maxIter ∧
        (I < maxIter → 2 ≤ I ∧ t (I - 1) + t (I - 2) < delta * ∑ i ∈ Finset.range (I - 1), t i)) ∧
      (∀ S, HasSum t S → characteristicFunction N s eta mu maxIter delta m ≤ S) ∧
      (delta ≤ 0 → characteristicFunction N s eta mu maxIter delta m = ∑ i ∈ Finset.range (max 1 maxIter), t i) := by
  obtain ⟨r, hr, hphr, hval⟩ := totalPhotonNumberDistribution_correct hN hh st hs hmu s O hO hOs hcov eta h0 h1 T hT
  refine ⟨r, hr, fun ρ hρ mu maxIter delta m t ht => ?_⟩
  have hp0 : ∀ i, 0 ≤ (ρ i i).re := fun i => by
    obtain ⟨r, hr, e⟩ := fockMatrix_diag hh hphr hρ i
    rw [e]; exact hr
  have ht0 : ∀ i, 0 ≤ t i := fun i => by
    rw [ht]
    have := Finset.sum_nonneg (s := Finset.piAntidiag Finset.univ i) (f := fun n : Fin N → ℕ => (ρ n n).re) fun n _ => hp0 n
    positivity
  have hf : ∀ i : ℕ, polyCorr m i = (i : ℝ) ^ (m.getD 0) := by
    intro i
    rcases m with _ | m
    · simp [polyCorr]
    · by_cases hm : m = 0
      · simp [polyCorr, hm]
      · simp [polyCorr, hm]
  have hterm : ∀ i : ℕ, polyCorr m i * totalPhotonNumberDistribution i N s eta (Real.exp mu) = t i := by
    intro i
    rw [ht, hf, hval ρ hρ i, ← Real.exp_nat_mul, mul_comm (i : ℝ) mu, mul_assoc]
  have main : ∃ I, characteristicFunction N s eta mu maxIter delta m = ∑ i ∈ Finset.range I, t i ∧ 1 ≤ I ∧ I ≤ max 1 maxIter ∧
        (I < maxIter → 2 ≤ I ∧ t (I - 1) + t (I - 2) < delta * ∑ i ∈ Finset.range (I - 1), t i) := by
    by_cases hz : s = 0 ∨ eta = 0
    · refine ⟨max 1 maxIter, ?_, le_max_left _ _, le_rfl, fun h => by omega⟩
      have hz' : eta * Real.tanh s = 0 := by
        rcases hz with hz | hz
        · rw [hz, Real.tanh_zero, mul_zero]
        · rw [hz, zero_mul]
      have hP : ∀ i : ℕ, i ≠ 0 → ∑ n ∈ Finset.piAntidiag Finset.univ i, (ρ n n).re = 0 := by
        intro i hi
        have := hval ρ hρ i 1
        rw [one_pow, one_mul] at this
        rw [← this, totalPhotonNumberDistribution]
        have e : (1 * eta * Real.tanh s) ^ i = 0 := by rw [one_mul, hz', zero_pow hi]
        rw [e, mul_zero, mul_zero, ite_self]
      have htr := hasSum_total (x := 1) (S := 1) (p := fun n : Fin N → ℕ => (ρ n n).re) (by
        have := Complex.hasSum_re (fockMatrix_trace hh hphr hρ)
        simpa using this)
      have hP0 : ∑ n ∈ Finset.piAntidiag Finset.univ 0, (ρ n n).re = 1 := by
        have h2 := hasSum_single (f := fun k => (∑ n ∈ Finset.piAntidiag Finset.univ k, (ρ n n).re) * (1 : ℝ) ^ k) 0 fun k hk => by rw [hP k hk, zero_mul]
        have := htr.unique h2
        simpa using this.symm
      have hsum : ∑ i ∈ Finset.range (max 1 maxIter), t i = t 0 := by
        refine Finset.sum_eq_single_of_mem 0 (Finset.mem_range.mpr (by omega)) fun i _ hi => ?_
        rw [ht, hP i hi, mul_zero]
      rw [hsum, ht, hP0, characteristicFunction, if_pos hz, ← hf]
      simp
    · rw [characteristicFunction, if_neg hz]
      obtain ⟨I, e1, e2, e3, e4⟩ := characteristicLoop_spec t ht0 maxIter delta maxIter 1 (t 0) le_rfl rfl (by omega)
      refine ⟨I, ?_, e2, e3, e4⟩
      rw [← e1, Finset.sum_range_one]
      have : (fun i : ℕ => polyCorr m i * totalPhotonNumberDistribution i N s eta (Real.exp mu)) = t := funext hterm
      dsimp only
      rw [this, hterm 0]
  refine ⟨main, fun S hS => ?_, fun hd => ?_⟩
  · obtain ⟨I, e, -⟩ := main
    rw [e]
    exact sum_le_hasSum _ (fun i _ => ht0 i) hS
  · obtain ⟨I, e, e1, e2, e3⟩ := main
    rw [e]
    have : ¬ I < maxIter := fun h => by
      have h3 := (e3 h).2
      have h4 : delta * ∑ i ∈ Finset.range (I - 1), t i ≤ 0 := mul_nonpos_of_nonpos_of_nonneg hd (Finset.sum_nonneg fun i _ => ht0 i)
      have := ht0 (I - 1)
      have := ht0 (I - 2)
      linarith
    rw [show I = max 1 maxIter by omega]

/-- the hypotheses are met: three modes squeezed by 1, transmission 1/2 -/
example : ∃ (st : GState ℝ) (T : ℕ → ℕ → ℂ), st.len = 2 * 3 ∧ (∀ i < 2 * 3, st.mu i = 0) ∧ (1 : Matrix (Fin 3 ⊕ Fin 3) (Fin 3 ⊕ Fin 3) ℝ) ∈ symplecticGroup (Fin 3) ℝ ∧
    phase 3 3 st.cov = ((2 : ℝ) / 2) • ((1 : Matrix (Fin 3 ⊕ Fin 3) (Fin 3 ⊕ Fin 3) ℝ) * diagonal (Sum.elim (fun _ => Real.exp (-2 * 1)) fun _ => Real.exp (2 * 1)) * 1ᵀ) ∧
    ∀ i j : Fin 3, T i j = if i = j then (Real.sqrt (1 / 2) : ℂ) else 0 := by
  obtain ⟨cov, hcov⟩ := exists_cov (N := 3) (((2 : ℝ) / 2) • ((1 : Matrix (Fin 3 ⊕ Fin 3) (Fin 3 ⊕ Fin 3) ℝ) * diagonal (Sum.elim (fun _ => Real.exp (-2 * 1)) fun _ => Real.exp (2 * 1)) * 1ᵀ))
  exact ⟨⟨6, fun _ => 0, cov⟩, fun i j => if i = j then (Real.sqrt (1 / 2) : ℂ) else 0, rfl, fun _ _ => rfl, one_mem _, hcov, fun i j => by simp only [Fin.val_inj]⟩

end Verif.Props
