/-
The Husimi function of a Gaussian state in terms of the `A` matrix.
-/
import Verif.Props.Threshold
import Verif.Spec.FockState
import Verif.Lemmas.GaussSeries

set_option linter.unusedSectionVars false
set_option linter.unusedSimpArgs false

namespace Verif.Lemmas.FockS
open Verif.Model Verif.Model.Symp Verif.Model.Conv Verif.Spec Verif.Lemmas Verif.Lemmas.Symp Verif.Props Matrix

/-- `(V + ħ/2)/ħ` -/
noncomputable def Wmat (N : ℕ) (cov : ℕ → ℕ → ℝ) (hbar : ℝ) : Matrix (Fin N ⊕ Fin N) (Fin N ⊕ Fin N) ℝ :=
  (1 / hbar) • (phase N N cov + (hbar / 2) • 1)

/-- quadratures to amplitudes -/
noncomputable def Um (N : ℕ) : Matrix (Fin N ⊕ Fin N) (Fin N ⊕ Fin N) ℂ := fromBlocks 1 (-(Complex.I • 1)) 1 (Complex.I • 1)

/-- the modes `0, …, N-1` as a finite set -/
def rngEquiv (N : ℕ) : Fin N ⊕ Fin N ≃ (Finset.range N) ⊕ (Finset.range N) :=
  let e : Fin N ≃ Finset.range N := ⟨fun k => ⟨k, Finset.mem_range.mpr k.2⟩, fun k => ⟨k, Finset.mem_range.mp k.2⟩, fun _ => rfl, fun _ => rfl⟩
  Equiv.sumCongr e e

theorem modeQuad_rng (N : ℕ) (p : Fin N ⊕ Fin N) : modeQuad N (Finset.range N) (rngEquiv N p) = quad N p := by rcases p with p | p <;> rfl

theorem Qsub_rng (N : ℕ) (cov : ℕ → ℕ → ℝ) (hbar : ℝ) : (Qsub N cov hbar (Finset.range N)).submatrix (rngEquiv N) (rngEquiv N) = phase N N (Qmat N cov hbar) := by
  ext p q
  simp only [submatrix_apply, Qsub, of_apply, modeQuad_rng, phase]

theorem Wsub_rng (N : ℕ) (cov : ℕ → ℕ → ℝ) (hbar : ℝ) : (Wsub N cov hbar (Finset.range N)).submatrix (rngEquiv N) (rngEquiv N) = Wmat N cov hbar := by
  ext p q
  simp only [submatrix_apply, Wsub, of_apply, modeQuad_rng, Wmat, phase, Matrix.smul_apply, Matrix.add_apply, smul_eq_mul, Matrix.one_apply, EmbeddingLike.apply_eq_iff_eq]
  split_ifs <;> ring

theorem amp_rng (N : ℕ) : (ampMat (Finset.range N)).submatrix (rngEquiv N) (rngEquiv N) = Um N := by
  ext p q
  rcases p with p | p <;> rcases q with q | q <;> simp [ampMat, Um, rngEquiv, Matrix.one_apply, Fin.ext_iff]

variable {N : ℕ} {cov : ℕ → ℕ → ℝ} {hbar : ℝ}

theorem Q_mul_U (hsym : ∀ i < 2 * N, ∀ j < 2 * N, cov i j = cov j i) (hh : 0 < hbar) :
    phase N N (Qmat N cov hbar) * Um N = Um N * (Wmat N cov hbar).map Complex.ofReal := by
  have h := congrArg (fun M => M.submatrix (rngEquiv N) (rngEquiv N)) (Qsub_mul_amp N cov hsym hbar hh (Finset.range N) (Finset.Subset.refl _))
  rw [← submatrix_mul_equiv _ _ _ (rngEquiv N), ← submatrix_mul_equiv _ _ _ (rngEquiv N), Qsub_rng, amp_rng] at h
  rw [h]
  congr 1
  rw [← Wsub_rng]; rfl

theorem U_conj : (Um N)ᴴ * Um N = (2 : ℂ) • 1 := by
  simp only [Um]
  rw [fromBlocks_conjTranspose, fromBlocks_multiply]
  ext p q
  rcases p with p | p <;> rcases q with q | q <;> simp [Matrix.one_apply, smul_smul] <;> split_ifs <;> norm_num

theorem det_Q (hsym : ∀ i < 2 * N, ∀ j < 2 * N, cov i j = cov j i) (hh : 0 < hbar) :
    (phase N N (Qmat N cov hbar)).det = ((Wmat N cov hbar).det : ℝ) := by
  have := Qsub_det N cov hsym hbar hh (Finset.range N) (Finset.Subset.refl _)
  rw [← Qsub_rng, det_submatrix_equiv_self, this, ← Wsub_rng, det_submatrix_equiv_self]

/-- the amplitudes `α, conj α` as one vector -/
noncomputable def dbl (α : Fin N → ℂ) : Fin N ⊕ Fin N → ℂ := Sum.elim α fun k => (starRingEnd ℂ) (α k)

/-- the exchange of `α` and `conj α` -/
def Xs (N : ℕ) : Matrix (Fin N ⊕ Fin N) (Fin N ⊕ Fin N) ℂ := fromBlocks 0 1 1 0

theorem X_dbl (α : Fin N → ℂ) : Xs N *ᵥ star (dbl α) = dbl α := by
  have e : star (dbl α) = Sum.elim (fun k => (starRingEnd ℂ) (α k)) α := by
    funext p
    rcases p with p | p <;> simp [dbl]
  rw [e, Xs, fromBlocks_mulVec]
  funext p
  rcases p with p | p <;> simp [dbl]

/-- the amplitudes of a phase-space vector -/
noncomputable def ampVec (d : Fin N ⊕ Fin N → ℝ) (hbar : ℝ) : Fin N → ℂ :=
  fun k => (⟨d (Sum.inl k), d (Sum.inr k)⟩ : ℂ) / (Real.sqrt (2 * hbar) : ℝ)

theorem U_mulVec (d : Fin N ⊕ Fin N → ℝ) (hh : 0 < hbar) :
    Um N *ᵥ (fun p => (d p : ℂ)) = ((Real.sqrt (2 * hbar) : ℝ) : ℂ) • star (dbl (ampVec d hbar)) := by
  have hs : ((Real.sqrt (2 * hbar) : ℝ) : ℂ) ≠ 0 := by
    rw [Complex.ofReal_ne_zero]; positivity
  have e : (fun p => (d p : ℂ)) = Sum.elim (fun k => (d (Sum.inl k) : ℂ)) (fun k => (d (Sum.inr k) : ℂ)) := by
    funext p; rcases p with p | p <;> rfl
  rw [e, Um, fromBlocks_mulVec]
  funext p
  rcases p with p | p
  · have : (⟨d (Sum.inl p), d (Sum.inr p)⟩ : ℂ) = d (Sum.inl p) + d (Sum.inr p) * Complex.I := by apply Complex.ext <;> simp
    simp only [Sum.elim_inl, Sum.elim_inr, Pi.add_apply, Matrix.one_mulVec, Matrix.neg_mulVec, Pi.neg_apply, Matrix.smul_mulVec, Pi.smul_apply, smul_eq_mul, dbl, ampVec, Pi.star_apply, this, Function.comp]
    rw [star_div₀]
    simp only [Complex.star_def, map_add, map_mul, Complex.conj_ofReal, Complex.conj_I]
    field_simp
  · have : (⟨d (Sum.inl p), d (Sum.inr p)⟩ : ℂ) = d (Sum.inl p) + d (Sum.inr p) * Complex.I := by apply Complex.ext <;> simp
    simp only [Sum.elim_inl, Sum.elim_inr, Pi.add_apply, Matrix.one_mulVec, Matrix.smul_mulVec, Pi.smul_apply, smul_eq_mul, dbl, ampVec, Pi.star_apply, this, Function.comp]
    simp only [Complex.star_def, starRingEnd_self_apply]
    field_simp

theorem Q_quad (hsym : ∀ i < 2 * N, ∀ j < 2 * N, cov i j = cov j i) (hh : 0 < hbar) (hdet : (Wmat N cov hbar).det ≠ 0) (d : Fin N ⊕ Fin N → ℝ) :
    dbl (ampVec d hbar) ⬝ᵥ (phase N N (Qmat N cov hbar))⁻¹ *ᵥ star (dbl (ampVec d hbar)) =
      ((d ⬝ᵥ (phase N N cov + (hbar / 2) • 1)⁻¹ *ᵥ d : ℝ) : ℂ) := by
  set Q := phase N N (Qmat N cov hbar) with hQ
  set W := Wmat N cov hbar with hW
  set δ := dbl (ampVec d hbar) with hδ
  set s : ℂ := ((Real.sqrt (2 * hbar) : ℝ) : ℂ) with hs
  have hs0 : s ≠ 0 := by rw [hs, Complex.ofReal_ne_zero]; positivity
  have hs2 : s * s = 2 * hbar := by
    rw [hs, ← Complex.ofReal_mul, Real.mul_self_sqrt (by positivity)]; push_cast; ring
  have hQdet : Q.det ≠ 0 := by rw [hQ, det_Q hsym hh, Complex.ofReal_ne_zero]; exact hdet
  have hQu : IsUnit Q.det := isUnit_iff_ne_zero.mpr hQdet
  have hWu : IsUnit W.det := isUnit_iff_ne_zero.mpr hdet
  have hWi : W⁻¹ = hbar • (phase N N cov + (hbar / 2) • 1)⁻¹ := by
    refine Matrix.inv_eq_right_inv ?_
    have hu : IsUnit (phase N N cov + (hbar / 2) • (1 : Matrix (Fin N ⊕ Fin N) (Fin N ⊕ Fin N) ℝ)).det := by
      rw [isUnit_iff_ne_zero]
      intro h0
      apply hdet
      rw [hW, Wmat, det_smul, h0, mul_zero]
    rw [hW, Wmat, Matrix.smul_mul, Matrix.mul_smul, Matrix.mul_nonsing_inv _ hu, smul_smul]
    rw [one_div, inv_mul_cancel₀ hh.ne', one_smul]
  have hWc : (W.map Complex.ofReal)⁻¹ = W⁻¹.map Complex.ofReal := by
    refine Matrix.inv_eq_right_inv ?_
    have := congrArg (fun M : Matrix _ _ ℝ => M.map Complex.ofReal) (Matrix.mul_nonsing_inv W hWu)
    exact (cmap_mul W W⁻¹).symm.trans (this.trans cmap_one)
  have hWcu : IsUnit (W.map Complex.ofReal).det := by
    have : (W.map Complex.ofReal).det = (W.det : ℂ) := (RingHom.map_det Complex.ofRealHom W).symm
    rw [this, isUnit_iff_ne_zero, Complex.ofReal_ne_zero]; exact hdet
  have hQU : Q⁻¹ * Um N = Um N * W⁻¹.map Complex.ofReal := by
    have h1 := Q_mul_U hsym hh
    rw [← hQ, ← hW] at h1
    calc Q⁻¹ * Um N = Q⁻¹ * (Um N * (W.map Complex.ofReal)) * (W.map Complex.ofReal)⁻¹ := by
          rw [Matrix.mul_assoc, Matrix.mul_assoc, Matrix.mul_nonsing_inv _ hWcu, Matrix.mul_one]
      _ = _ := by rw [← h1, ← Matrix.mul_assoc Q⁻¹, Matrix.nonsing_inv_mul _ hQu, Matrix.one_mul, hWc]
  have hU := U_mulVec d hh (N := N)
  rw [← hδ, ← hs] at hU
  set v : Fin N ⊕ Fin N → ℂ := fun p => (d p : ℂ) with hv
  have e1 : star δ = s⁻¹ • (Um N *ᵥ v) := by rw [hU, smul_smul, inv_mul_cancel₀ hs0, one_smul]
  have e2 : δ = s⁻¹ • star (Um N *ᵥ v) := by
    have := congrArg star e1
    rw [star_star] at this
    rw [this, star_smul]
    congr 1
    rw [star_inv₀, hs, Complex.star_def, Complex.conj_ofReal]
  rw [e1, Matrix.mulVec_smul, Matrix.mulVec_mulVec, hQU, ← Matrix.mulVec_mulVec, e2, dotProduct_smul, smul_dotProduct, smul_smul]
  rw [Matrix.star_mulVec, ← Matrix.dotProduct_mulVec, Matrix.mulVec_mulVec, U_conj, Matrix.smul_mulVec, Matrix.one_mulVec, dotProduct_smul]
  have e3 : star v ⬝ᵥ (W⁻¹.map Complex.ofReal) *ᵥ v = ((d ⬝ᵥ W⁻¹ *ᵥ d : ℝ) : ℂ) := by
    simp only [dotProduct, Matrix.mulVec, Matrix.map_apply, hv, Pi.star_apply, Complex.star_def, Complex.conj_ofReal]
    push_cast
    rfl
  rw [e3, hWi, Matrix.smul_mulVec, dotProduct_smul]
  simp only [smul_eq_mul]
  push_cast
  have : s⁻¹ * s⁻¹ = (2 * (hbar : ℂ))⁻¹ := by rw [← mul_inv, hs2]
  rw [this]
  have hb : (hbar : ℂ) ≠ 0 := by exact_mod_cast hh.ne'
  field_simp

theorem ampVec_coh (hh : 0 < hbar) (α : Fin N → ℂ) : ampVec (cohQuad hbar α) hbar = α := by
  have hs : ((Real.sqrt (2 * hbar) : ℝ) : ℂ) ≠ 0 := by rw [Complex.ofReal_ne_zero]; positivity
  funext k
  unfold ampVec
  rw [div_eq_iff hs]
  apply Complex.ext <;> simp [cohQuad] <;> ring

theorem ampVec_sub (d e : Fin N ⊕ Fin N → ℝ) : ampVec (d - e) hbar = ampVec d hbar - ampVec e hbar := by
  funext k
  unfold ampVec
  simp only [Pi.sub_apply]
  rw [← sub_div]
  congr 1

theorem dbl_sub (α β : Fin N → ℂ) : dbl (α - β) = dbl α - dbl β := by
  funext p
  rcases p with p | p <;> simp [dbl]

theorem dbl_dot (α β : Fin N → ℂ) : dbl α ⬝ᵥ star (dbl β) = dbl β ⬝ᵥ star (dbl α) := by
  simp only [dotProduct, Fintype.sum_sum_type, dbl, Pi.star_apply, Sum.elim_inl, Sum.elim_inr, Complex.star_def, starRingEnd_self_apply]
  rw [add_comm]
  congr 1 <;> exact Finset.sum_congr rfl fun k _ => mul_comm _ _

theorem dbl_norm (α : Fin N → ℂ) : dbl α ⬝ᵥ star (dbl α) = 2 * ((∑ k, Complex.normSq (α k) : ℝ) : ℂ) := by
  simp only [dotProduct, Fintype.sum_sum_type, dbl, Pi.star_apply, Sum.elim_inl, Sum.elim_inr, Complex.star_def, starRingEnd_self_apply]
  push_cast
  rw [two_mul]
  congr 1 <;> refine Finset.sum_congr rfl fun k _ => ?_
  · rw [Complex.mul_conj]
  · rw [mul_comm, Complex.mul_conj]

/-- completing the square -/
theorem exponent (A Qi : Matrix (Fin N ⊕ Fin N) (Fin N ⊕ Fin N) ℂ) (hA : Aᵀ = A) (hQ : A * Xs N = 1 - Qi) (α β : Fin N → ℂ) :
    dbl α ⬝ᵥ star (dbl α) - dbl (α - β) ⬝ᵥ Qi *ᵥ star (dbl (α - β)) =
      dbl α ⬝ᵥ A *ᵥ dbl α + 2 * ((star (dbl β) - A *ᵥ dbl β) ⬝ᵥ dbl α) - dbl β ⬝ᵥ Qi *ᵥ star (dbl β) := by
  have hQ' : Qi = 1 - A * Xs N := by rw [hQ]; simp
  have e : ∀ γ δ : Fin N → ℂ, dbl γ ⬝ᵥ Qi *ᵥ star (dbl δ) = dbl γ ⬝ᵥ star (dbl δ) - dbl γ ⬝ᵥ A *ᵥ dbl δ := by
    intro γ δ
    rw [hQ', Matrix.sub_mulVec, Matrix.one_mulVec, ← Matrix.mulVec_mulVec, X_dbl, dotProduct_sub]
  have hs : ∀ u v : Fin N ⊕ Fin N → ℂ, u ⬝ᵥ A *ᵥ v = v ⬝ᵥ A *ᵥ u := by
    intro u v
    rw [Matrix.dotProduct_mulVec, ← Matrix.mulVec_transpose, hA, dotProduct_comm]
  rw [e, e, dbl_sub, star_sub]
  simp only [Matrix.mulVec_sub, sub_dotProduct, dotProduct_sub]
  rw [hs (dbl β) (dbl α), dbl_dot β α, dotProduct_comm (star (dbl β)) (dbl α), dotProduct_comm (A *ᵥ dbl β) (dbl α)]
  ring

/-- the Husimi function as the exponential of a quadratic polynomial -/
theorem husimi_exp (hsym : ∀ i < 2 * N, ∀ j < 2 * N, cov i j = cov j i) (hh : 0 < hbar) (hdet : (Wmat N cov hbar).det ≠ 0) (mu : ℕ → ℝ)
    (A : ℕ → ℕ → ℂ) (hA : (phase N N A)ᵀ = phase N N A) (hQ : phase N N A * phase N N (Xmat N) = 1 - (phase N N (Qmat N cov hbar))⁻¹) (α : Fin N → ℂ) :
    ((Real.exp (∑ k, Complex.normSq (α k)) * husimiFn N mu cov hbar α : ℝ) : ℂ) =
      Complex.exp (-(1 / 2) * (dbl (ampVec (phaseVec N mu) hbar) ⬝ᵥ (phase N N (Qmat N cov hbar))⁻¹ *ᵥ star (dbl (ampVec (phaseVec N mu) hbar))))
        / (Real.sqrt (Wmat N cov hbar).det : ℝ)
      * Complex.exp ((dbl α ⬝ᵥ phase N N A *ᵥ dbl α) / 2
        + (star (dbl (ampVec (phaseVec N mu) hbar)) - phase N N A *ᵥ dbl (ampVec (phaseVec N mu) hbar)) ⬝ᵥ dbl α) := by
  set β := ampVec (phaseVec N mu) hbar with hβ
  rw [phase_Xmat] at hQ
  have hexp := exponent (phase N N A) (phase N N (Qmat N cov hbar))⁻¹ hA hQ α β
  have hq := Q_quad hsym hh hdet (cohQuad hbar α - phaseVec N mu)
  rw [ampVec_sub, ampVec_coh hh, ← hβ] at hq
  unfold husimiFn
  dsimp only
  rw [mul_div_assoc', ← Real.exp_add]
  rw [Complex.ofReal_div, Complex.ofReal_exp, div_mul_eq_mul_div, ← Complex.exp_add]
  congr 2
  push_cast
  rw [show ((∑ k, ((Complex.normSq (α k) : ℝ) : ℂ)) : ℂ) = (dbl α ⬝ᵥ star (dbl α)) / 2 by rw [dbl_norm]; push_cast; ring]
  rw [← hq]
  linear_combination hexp / 2

/-- pairs of occupation numbers as one index vector -/
noncomputable def pairEquiv (N : ℕ) : (Fin N → ℕ) × (Fin N → ℕ) ≃ (Fin (2 * N) → ℕ) :=
  (Equiv.sumArrowEquivProdArrow (Fin N) (Fin N) ℕ).symm.trans (Equiv.arrowCongr (quadEquiv N) (Equiv.refl ℕ))

theorem pairEquiv_quad (N : ℕ) (q : (Fin N → ℕ) × (Fin N → ℕ)) (p : Fin N ⊕ Fin N) : pairEquiv N q (quadEquiv N p) = Sum.elim q.1 q.2 p := by
  simp [pairEquiv, Equiv.arrowCongr]
  rcases p with p | p <;> rfl

theorem pairEquiv_list (N : ℕ) (q : (Fin N → ℕ) × (Fin N → ℕ)) : List.ofFn (pairEquiv N q) = List.ofFn q.1 ++ List.ofFn q.2 := by
  apply List.ext_getElem
  · simp; omega
  · intro n h1 h2
    rw [List.getElem_ofFn]
    by_cases hn : n < N
    · rw [List.getElem_append_left (by simpa using hn), List.getElem_ofFn]
      exact pairEquiv_quad N q (Sum.inl ⟨n, hn⟩)
    · rw [List.getElem_append_right (by simpa using hn), List.getElem_ofFn]
      have hl : n < 2 * N := by simpa using h1
      have := pairEquiv_quad N q (Sum.inr ⟨n - N, by omega⟩)
      simp only [Sum.elim_inr] at this
      simp only [List.length_ofFn]
      rw [← this]
      refine congrArg (pairEquiv N q) (Fin.ext ?_)
      show n = N + (n - N)
      omega

theorem hasSum_of_eq {ι : Type*} {f g : ι → ℂ} {a b : ℂ} (h : HasSum g b) (hf : ∀ x, f x = g x) (ha : a = b) : HasSum f a := by
  rw [ha, funext hf]; exact h

theorem gauss_fock (A : ℕ → ℕ → ℂ) (hA : (phase N N A)ᵀ = phase N N A) (γ : ℕ → ℂ) (z : Fin N ⊕ Fin N → ℂ) :
    HasSum (fun q : (Fin N → ℕ) × (Fin N → ℕ) => lh γ A (repeatedIndices (List.ofFn q.1 ++ List.ofFn q.2)) *
        ((∏ k, z (Sum.inl k) ^ q.1 k / ((q.1 k).factorial : ℂ)) * ∏ k, z (Sum.inr k) ^ q.2 k / ((q.2 k).factorial : ℂ)))
      (Complex.exp ((z ⬝ᵥ phase N N A *ᵥ z) / 2 + phaseVec N γ ⬝ᵥ z)) := by
  have hsym : ∀ i < 2 * N, ∀ j < 2 * N, A i j = A j i := by
    intro i hi j hj
    obtain ⟨p, rfl⟩ := exists_quad N i hi
    obtain ⟨q, rfl⟩ := exists_quad N j hj
    exact congrFun (congrFun hA q) p
  have h := GaussS.gauss_hasSum GaussS.isExp_complex A hsym γ (fun i : Fin (2 * N) => z ((quadEquiv N).symm i))
  rw [← (pairEquiv N).hasSum_iff] at h
  refine hasSum_of_eq h (fun q => ?_) ?_
  · simp only [Function.comp]
    unfold GaussS.H herm GaussS.mono
    rw [pairEquiv_list]
    simp only [neg_neg]
    congr 1
    rw [← Equiv.prod_comp (quadEquiv N)]
    rw [Fintype.prod_sum_type]
    simp only [pairEquiv_quad, Equiv.symm_apply_apply, Sum.elim_inl, Sum.elim_inr]
  · congr 1
    unfold GaussS.qd GaussS.ln
    congr 1
    · congr 1
      rw [← Equiv.sum_comp (quadEquiv N)]
      simp only [dotProduct, Matrix.mulVec, Equiv.symm_apply_apply, Finset.mul_sum]
      refine Finset.sum_congr rfl fun p _ => ?_
      rw [← Equiv.sum_comp (quadEquiv N)]
      refine Finset.sum_congr rfl fun q _ => ?_
      rw [Equiv.symm_apply_apply, mul_assoc]
      rfl
    · rw [← Equiv.sum_comp (quadEquiv N)]
      simp only [dotProduct, Equiv.symm_apply_apply]
      rfl

/-- the density matrix of the Gaussian state, from the `A` matrix -/
noncomputable def rhoMat (N : ℕ) (mu : ℕ → ℝ) (cov : ℕ → ℕ → ℝ) (hbar : ℝ) (A : ℕ → ℕ → ℂ) (γ : ℕ → ℂ) (i j : Fin N → ℕ) : ℂ :=
  Complex.exp (-(1 / 2) * (dbl (ampVec (phaseVec N mu) hbar) ⬝ᵥ (phase N N (Qmat N cov hbar))⁻¹ *ᵥ star (dbl (ampVec (phaseVec N mu) hbar))))
        / (Real.sqrt (Wmat N cov hbar).det : ℝ) * lh γ A (repeatedIndices (List.ofFn j ++ List.ofFn i))
    / (Real.sqrt (((∏ k, ((j k).factorial : ℝ)) * ∏ k, ((i k).factorial : ℝ))) : ℝ)

theorem rhoMat_fock (hsym : ∀ i < 2 * N, ∀ j < 2 * N, cov i j = cov j i) (hh : 0 < hbar) (hdet : (Wmat N cov hbar).det ≠ 0) (mu : ℕ → ℝ)
    (A : ℕ → ℕ → ℂ) (hA : (phase N N A)ᵀ = phase N N A) (hQ : phase N N A * phase N N (Xmat N) = 1 - (phase N N (Qmat N cov hbar))⁻¹)
    (γ : ℕ → ℂ) (hγ : phaseVec N γ = star (dbl (ampVec (phaseVec N mu) hbar)) - phase N N A *ᵥ dbl (ampVec (phaseVec N mu) hbar)) :
    IsFockMatrix N mu cov hbar (rhoMat N mu cov hbar A γ) := by
  intro α
  have h := gauss_fock A hA γ (dbl α)
  rw [hγ] at h
  have h2 := h.mul_left (Complex.exp (-(1 / 2) * (dbl (ampVec (phaseVec N mu) hbar) ⬝ᵥ (phase N N (Qmat N cov hbar))⁻¹ *ᵥ star (dbl (ampVec (phaseVec N mu) hbar))))
        / (Real.sqrt (Wmat N cov hbar).det : ℝ))
  rw [← husimi_exp hsym hh hdet mu A hA hQ α, ← (Equiv.prodComm _ _).hasSum_iff] at h2
  refine hasSum_of_eq h2 (fun q => ?_) rfl
  simp only [Function.comp, Equiv.prodComm_apply, Prod.fst_swap, Prod.snd_swap, rhoMat, cohAmp, dbl, Sum.elim_inl, Sum.elim_inr]
  have hf : ∀ (f : Fin N → ℂ) (i : Fin N → ℕ), ∏ k, f k ^ i k / ((Real.sqrt ((i k).factorial : ℝ) : ℝ) : ℂ) =
      (∏ k, f k ^ i k / ((i k).factorial : ℂ)) * ((Real.sqrt (∏ k, ((i k).factorial : ℝ)) : ℝ) : ℂ) := by
    intro f i
    rw [Real.sqrt_prod _ (fun k _ => Nat.cast_nonneg _)]
    push_cast
    rw [← Finset.prod_mul_distrib]
    refine Finset.prod_congr rfl fun k _ => ?_
    have h0 : ((Real.sqrt ((i k).factorial : ℝ) : ℝ) : ℂ) ≠ 0 := by
      rw [Complex.ofReal_ne_zero]
      have : (0 : ℝ) < (i k).factorial := by exact_mod_cast Nat.factorial_pos _
      positivity
    have h1 : ((i k).factorial : ℂ) = ((Real.sqrt ((i k).factorial : ℝ) : ℝ) : ℂ) * ((Real.sqrt ((i k).factorial : ℝ) : ℝ) : ℂ) := by
      rw [← Complex.ofReal_mul, Real.mul_self_sqrt (Nat.cast_nonneg _)]; simp
    rw [h1]
    field_simp
  rw [map_prod]
  simp only [map_div₀, map_pow, starRingEnd_self_apply, Complex.conj_ofReal]
  rw [hf (fun k => (starRingEnd ℂ) (α k)), hf α, Real.sqrt_mul (Finset.prod_nonneg fun _ _ => Nat.cast_nonneg _)]
  have hp : ∀ i : Fin N → ℕ, ((Real.sqrt (∏ k, ((i k).factorial : ℝ)) : ℝ) : ℂ) ≠ 0 := by
    intro i
    rw [Complex.ofReal_ne_zero]
    have : (0 : ℝ) < ∏ k, ((i k).factorial : ℝ) := Finset.prod_pos fun k _ => by exact_mod_cast Nat.factorial_pos _
    positivity
  have h1 := hp q.1
  have h2 := hp q.2
  push_cast
  field_simp

end Verif.Lemmas.FockS
