/-
C80: every Gaussian state is the image of a thermal state under a Gaussian unitary.
-/
import Verif.Props.GaussianUnitary
import Verif.Lemmas.Purify

set_option linter.unusedSectionVars false
set_option linter.unusedSimpArgs false

namespace Verif.Props
open Verif.Model Verif.Model.Symp Verif.Model.Conv Verif.Model.Fock Verif.Spec Verif.Lemmas Verif.Lemmas.Symp Verif.Lemmas.Heis Verif.Lemmas.FPar Matrix

variable {l : ℕ} {S T : Matrix (Fin l ⊕ Fin l) (Fin l ⊕ Fin l) ℝ} {α β : Fin l → ℂ} {U V : (Fin l → ℕ) → (Fin l → ℕ) → ℂ}

/-- half of the two-mode squeezing is the thermal covariance matrix -/
theorem tms_half {ι : Type} [Fintype ι] [DecidableEq ι] (r : ι → ℝ) : (sTmsD r * (sTmsD r)ᵀ).submatrix (Sum.map Sum.inl Sum.inl) (Sum.map Sum.inl Sum.inl) =
    diagonal (Sum.elim (fun k => Real.cosh (r k) ^ 2 + Real.sinh (r k) ^ 2) fun k => Real.cosh (r k) ^ 2 + Real.sinh (r k) ^ 2) := by
  unfold sTmsD
  simp only [fromBlocks_transpose, fromBlocks_multiply, transpose_neg, diagonal_transpose, transpose_zero, Matrix.mul_neg, Matrix.neg_mul, neg_neg, diagonal_mul_diagonal, Matrix.mul_zero, Matrix.zero_mul,
    add_zero, zero_add]
  ext (i | i) (j | j) <;> by_cases h : i = j <;> simp [h, diagonal_apply, sq]

theorem sOne_half {ι : Type} [Fintype ι] [DecidableEq ι] (S : Matrix (ι ⊕ ι) (ι ⊕ ι) ℝ) (G : Matrix ((ι ⊕ ι) ⊕ (ι ⊕ ι)) ((ι ⊕ ι) ⊕ (ι ⊕ ι)) ℝ) :
    (sOne S * G * (sOne S)ᵀ).submatrix (Sum.map Sum.inl Sum.inl) (Sum.map Sum.inl Sum.inl) = S * G.submatrix (Sum.map Sum.inl Sum.inl) (Sum.map Sum.inl Sum.inl) * Sᵀ := by
  have h : ∀ p x, sOne S (Sum.map Sum.inl Sum.inl p) x = Sum.elim (Sum.elim (fun k => S p (.inl k)) 0) (Sum.elim (fun k => S p (.inr k)) 0) x := by
    intro p x
    rcases p with p | p <;> rcases x with (x | x) | (x | x) <;> simp [sOne, toBlocks₁₁, toBlocks₁₂, toBlocks₂₁, toBlocks₂₂]
  ext p q
  simp only [submatrix_apply, mul_apply, transpose_apply, h, Fintype.sum_sum_type, Sum.elim_inl, Sum.elim_inr, Pi.zero_apply, zero_mul, mul_zero, Finset.sum_const_zero, add_zero, Sum.map_inl, Sum.map_inr]

/-- the restriction of the purification to the first half of the modes -/
theorem pur_half (S : Matrix (Fin l ⊕ Fin l) (Fin l ⊕ Fin l) ℝ) (r : Fin l → ℝ) :
    (purS S r * (purS S r)ᵀ).submatrix (Sum.map (fun k => quadEquiv l (.inl k)) (fun k => quadEquiv l (.inl k))) (Sum.map (fun k => quadEquiv l (.inl k)) (fun k => quadEquiv l (.inl k))) =
      S * diagonal (Sum.elim (fun k => Real.cosh (r k) ^ 2 + Real.sinh (r k) ^ 2) fun k => Real.cosh (r k) ^ 2 + Real.sinh (r k) ^ 2) * Sᵀ := by
  rw [← tms_half, ← sOne_half]
  have e : Sum.map (quadEquiv l).symm (quadEquiv l).symm = Equiv.sumCongr (quadEquiv l).symm (quadEquiv l).symm := rfl
  have e2 : (purS S r * (purS S r)ᵀ) = (sOne S * (sTmsD r * (sTmsD r)ᵀ) * (sOne S)ᵀ).submatrix (Sum.map (quadEquiv l).symm (quadEquiv l).symm) (Sum.map (quadEquiv l).symm (quadEquiv l).symm) := by
    unfold purS
    rw [e, transpose_submatrix, submatrix_mul_equiv, transpose_mul]
    simp only [Matrix.mul_assoc]
  rw [e2, submatrix_submatrix]
  congr 1 <;> funext p <;> rcases p with p | p <;> simp

/-- occupation numbers of the second half -/
noncomputable def halfPairs (i j : Fin l → ℕ) : (Fin l → ℕ) ≃ {x : (Fin (2 * l) → ℕ) × (Fin (2 * l) → ℕ) // x.1 ∘ (fun k => quadEquiv l (.inl k)) = i ∧ x.2 ∘ (fun k => quadEquiv l (.inl k)) = j ∧
    ∀ k, k ∉ Set.range (fun k => quadEquiv l (.inl k)) → x.1 k = x.2 k} where
  toFun m := ⟨(pairN i m, pairN j m), by
    refine ⟨funext fun k => pairN_inl _ _ _, funext fun k => pairN_inl _ _ _, fun k hk => ?_⟩
    obtain ⟨p, rfl⟩ := (quadEquiv l).surjective k
    rcases p with p | p
    · exact absurd ⟨p, rfl⟩ hk
    · exact (pairN_inr _ _ _).trans (pairN_inr _ _ _).symm⟩
  invFun x := fun k => x.1.1 (quadEquiv l (.inr k))
  left_inv m := by funext k; exact pairN_inr _ _ _
  right_inv x := by
    obtain ⟨⟨p, q⟩, h1, h2, h3⟩ := x
    refine Subtype.ext (Prod.ext ?_ ?_)
    · exact (pairN_ext (fun k => congrFun h1 k) fun k => rfl).symm
    · refine (pairN_ext (fun k => congrFun h2 k) fun k => (h3 _ ?_).symm).symm
      rintro ⟨k', hk'⟩
      exact absurd ((quadEquiv l).injective hk') (by simp)

theorem thermal_weight (d r : ℝ) (h1 : Real.cosh r ^ 2 = (d + 1) / 2) (h2 : Real.sinh r ^ 2 = (d - 1) / 2) (n : ℕ) :
    (Real.tanh r ^ 2) ^ n / Real.cosh r ^ 2 = thermalProb ((d - 1) / 2) n := by
  have hc := Real.cosh_pos r
  rw [Real.tanh_eq_sinh_div_cosh, div_pow, h2, h1, thermalProb, div_pow, div_div, ← pow_succ]
  congr 2
  ring

/-- the phase-space mean of the complex amplitude -/
theorem amp_mean {hbar : ℝ} (hh : 0 < hbar) {mu : ℕ → ℝ} (hmu : ∀ k : Fin l, mu k = Real.sqrt (2 * hbar) * (α k).re ∧ mu (l + k) = Real.sqrt (2 * hbar) * (α k).im) (k : Fin l) :
    complexToReal l mu hbar k = α k := by
  rw [(complexToReal_entries l mu hbar k k.2).1, Spec.amp, (hmu k).1, (hmu k).2]
  have hs : ((Real.sqrt (2 * hbar) : ℝ) : ℂ) ≠ 0 := Complex.ofReal_ne_zero.mpr (Real.sqrt_pos.mpr (by linarith)).ne'
  rw [div_eq_iff hs]
  apply Complex.ext <;> simp <;> ring

theorem mean_amp {N : ℕ} {hbar : ℝ} (hh : 0 < hbar) {mu : ℕ → ℝ} {a : Fin N → ℂ} (h : ∀ k : Fin N, complexToReal N mu hbar k = a k) (k : Fin N) :
    mu k = Real.sqrt (2 * hbar) * (a k).re ∧ mu (N + k) = Real.sqrt (2 * hbar) * (a k).im := by
  have h1 := h k
  rw [(complexToReal_entries N mu hbar k k.2).1, Spec.amp] at h1
  have hs : ((Real.sqrt (2 * hbar) : ℝ) : ℂ) ≠ 0 := Complex.ofReal_ne_zero.mpr (Real.sqrt_pos.mpr (by linarith)).ne'
  rw [div_eq_iff hs] at h1
  have hr := congrArg Complex.re h1
  have hi := congrArg Complex.im h1
  simp only [Complex.mul_re, Complex.mul_im, Complex.ofReal_re, Complex.ofReal_im, mul_zero, sub_zero, zero_add] at hr hi
  constructor <;> linarith

theorem pur_restrict (hbar : ℝ) (cov cov' : ℕ → ℕ → ℝ) (r d : Fin l → ℝ) (hd : ∀ k, Real.cosh (r k) ^ 2 + Real.sinh (r k) ^ 2 = d k)
    (hcov : phase l l cov = (hbar / 2) • (S * diagonal (Sum.elim d d) * Sᵀ)) (hcov' : phase (2 * l) (2 * l) cov' = (hbar / 2) • (purS S r * (purS S r)ᵀ)) :
    resM (phase (2 * l) (2 * l) cov' + (hbar / 2) • 1) (fun k => quadEquiv l (.inl k)) = phase l l cov + (hbar / 2) • 1 := by
  have h := pur_half S r
  simp only [hd] at h
  have hinj : Function.Injective (Sum.map (fun k : Fin l => quadEquiv l (.inl k)) (fun k : Fin l => quadEquiv l (.inl k))) :=
    Sum.map_injective.mpr ⟨fun a b e => by simpa using e, fun a b e => by simpa using e⟩
  rw [hcov, ← h, hcov']
  unfold resM
  ext p q
  simp only [Matrix.add_apply, Matrix.submatrix_apply, Matrix.smul_apply, Matrix.one_apply, hinj.eq_iff]

theorem pur_means {hbar : ℝ} (hh : 0 < hbar) {mu mu' : ℕ → ℝ} (hmu : ∀ k : Fin l, mu k = Real.sqrt (2 * hbar) * (α k).re ∧ mu (l + k) = Real.sqrt (2 * hbar) * (α k).im)
    (hmu' : ∀ k : Fin (2 * l), complexToReal (2 * l) mu' hbar k = choiA α k) : resV (phaseVec (2 * l) mu') (fun k => quadEquiv l (.inl k)) = phaseVec l mu := by
  funext p
  rcases p with p | p
  · have := (mean_amp hh hmu' (quadEquiv l (.inl p))).1
    simp only [choiA, Function.comp_apply, Equiv.symm_apply_apply, Sum.elim_inl] at this
    rw [← (hmu p).1] at this
    exact this
  · have := (mean_amp hh hmu' (quadEquiv l (.inl p))).2
    simp only [choiA, Function.comp_apply, Equiv.symm_apply_apply, Sum.elim_inl] at this
    rw [← (hmu p).2] at this
    exact this

theorem thermal_term (hS : S ∈ symplecticGroup (Fin l) ℝ) (r d : Fin l → ℝ) (h1 : ∀ k, Real.cosh (r k) ^ 2 = (d k + 1) / 2) (h2 : ∀ k, Real.sinh (r k) ^ 2 = (d k - 1) / 2)
    (i j m : Fin l → ℕ) : stAmp (purS S r) (choiA α) (pairN i m) * (starRingEnd ℂ) (stAmp (purS S r) (choiA α) (pairN j m)) =
      ((∏ k, thermalProb ((d k - 1) / 2) (m k) : ℝ) : ℂ) * (gaussU S α i m * (starRingEnd ℂ) (gaussU S α j m)) := by
  rw [pur_amp hS, pur_amp hS, map_mul]
  have hx : (∏ k, ((Real.tanh (r k) : ℝ) : ℂ) ^ m k) / (∏ k, ((Real.cosh (r k) : ℝ) : ℂ)) = (((∏ k, Real.tanh (r k) ^ m k) / ∏ k, Real.cosh (r k) : ℝ) : ℂ) := by
    push_cast; rfl
  have hp : ((∏ k, Real.tanh (r k) ^ m k) / ∏ k, Real.cosh (r k)) * ((∏ k, Real.tanh (r k) ^ m k) / ∏ k, Real.cosh (r k)) = ∏ k, thermalProb ((d k - 1) / 2) (m k) := by
    rw [← Finset.prod_div_distrib, ← Finset.prod_mul_distrib]
    refine Finset.prod_congr rfl fun k _ => ?_
    rw [← thermal_weight (d k) (r k) (h1 k) (h2 k), div_mul_div_comm, ← pow_two, ← pow_two, ← pow_mul, ← pow_mul, mul_comm]
  rw [hx, Complex.conj_ofReal, ← hp]
  push_cast
  ring

/-- **C80** the Gaussian state with covariance matrix `(ħ/2) S diag(ν, ν) Sᵀ` and mean `√(2ħ) (Re α, Im α)` is the mixture, with the photon-number probabilities of the thermal state
with mean photon numbers `(ν_k - 1) / 2`, of the columns of the Gaussian unitary of `(S, α)`. -/
theorem gaussian_thermal (hS : S ∈ symplecticGroup (Fin l) ℝ) (hV : IsGaussianUnitary S α V) (hbar : ℝ) (hh : 0 < hbar) (ν : Fin l → ℝ) (hν : ∀ k, 1 ≤ ν k) (mu : ℕ → ℝ) (cov : ℕ → ℕ → ℝ)
    (hcov : phase l l cov = (hbar / 2) • (S * diagonal (Sum.elim ν ν) * Sᵀ))
    (hmu : ∀ k : Fin l, mu k = Real.sqrt (2 * hbar) * (α k).re ∧ mu (l + k) = Real.sqrt (2 * hbar) * (α k).im)
    (ρ : (Fin l → ℕ) → (Fin l → ℕ) → ℂ) (hρ : IsFockMatrix l mu cov hbar ρ) (i j : Fin l → ℕ) :
    HasSum (fun m => ((∏ k, thermalProb ((ν k - 1) / 2) (m k) : ℝ) : ℂ) * (V i m * (starRingEnd ℂ) (V j m))) (ρ i j) := by
  have h2 : ∀ k, Real.sinh (Real.arsinh (Real.sqrt ((ν k - 1) / 2))) ^ 2 = (ν k - 1) / 2 := fun k => by
    rw [Real.sinh_arsinh, Real.sq_sqrt (by linarith [hν k])]
  have h1 : ∀ k, Real.cosh (Real.arsinh (Real.sqrt ((ν k - 1) / 2))) ^ 2 = (ν k + 1) / 2 := fun k => by
    rw [Real.cosh_sq, h2]; ring
  generalize hr : (fun k => Real.arsinh (Real.sqrt ((ν k - 1) / 2))) = r at *
  have h1' : ∀ k, Real.cosh (r k) ^ 2 = (ν k + 1) / 2 := fun k => by rw [← hr]; exact h1 k
  have h2' : ∀ k, Real.sinh (r k) ^ 2 = (ν k - 1) / 2 := fun k => by rw [← hr]; exact h2 k
  obtain ⟨cov', hcov'⟩ := exists_cov ((hbar / 2) • (purS S r * (purS S r)ᵀ))
  obtain ⟨mu', hmu'⟩ := exists_mu hh (choiA α)
  have hF := stAmp_fock hh (purS_symp hS r) hcov' mu' (choiA α) hmu'
  have hinj : Function.Injective (fun k : Fin l => quadEquiv l (.inl k)) := fun a b e => by simpa using e
  obtain ⟨ρ', h3, h4⟩ := fock_partialTrace (fun k : Fin l => quadEquiv l (.inl k)) hinj hh (symp_physical hh (purS_symp hS r) hcov').1 hF
  rw [pur_restrict hbar cov cov' r ν (fun k => by rw [h1', h2']; ring) hcov hcov', pur_means hh hmu hmu', ← isFock_iff] at h4
  obtain rfl := fockMatrix_unique h4 hρ
  have h5 := h3 i j
  rw [← (halfPairs i j).hasSum_iff] at h5
  obtain ⟨⟨z, hz, hzV⟩, -⟩ := gaussianUnitary_unique hS (gaussU_correct hS α) hV
  refine h5.congr_fun fun m => ?_
  have ht := thermal_term (α := α) hS r ν h1' h2' i j m
  have hzz : z * (starRingEnd ℂ) z = 1 := by rw [Complex.mul_conj, Complex.normSq_eq_norm_sq, hz]; simp
  rw [hzV, hzV, map_mul]
  refine Eq.trans ?_ ht.symm
  linear_combination ((∏ k, thermalProb ((ν k - 1) / 2) (m k) : ℝ) : ℂ) * (gaussU S α i m * (starRingEnd ℂ) (gaussU S α j m)) * hzz

end Verif.Props
