/-
C20: `threshold_detection_prob` is the click distribution of the displaced Gaussian state.
-/
import Verif.Props.Torontonian
import Verif.Props.Physical

set_option linter.unusedSectionVars false
set_option linter.unusedSimpArgs false

namespace Verif.Props
open Verif.Model Verif.Model.Symp Verif.Model.Conv Verif.Model.Tor Verif.Spec Verif.Lemmas Verif.Lemmas.Symp Verif.Lemmas.Chol Matrix
open scoped ComplexOrder

/-! ### Complementary minors -/

section
variable {a b : Type*} [Fintype a] [Fintype b] [DecidableEq a] [DecidableEq b]

/-- Jacobi's complementary minor identity -/
theorem jacobi_minor (M P : Matrix (a ⊕ b) (a ⊕ b) ℂ) (h : M * P = 1) : M.det * P.toBlocks₂₂.det = M.toBlocks₁₁.det := by
  have h' : M * fromBlocks 1 P.toBlocks₁₂ 0 P.toBlocks₂₂ = fromBlocks M.toBlocks₁₁ 0 M.toBlocks₂₁ 1 := by
    rw [← fromBlocks_toBlocks M, ← fromBlocks_toBlocks P, fromBlocks_multiply, ← fromBlocks_one] at h
    obtain ⟨-, h2, -, h4⟩ := fromBlocks_inj.mp h
    rw [← fromBlocks_toBlocks M, fromBlocks_multiply]
    simp only [toBlocks_fromBlocks₁₁, toBlocks_fromBlocks₁₂, toBlocks_fromBlocks₂₁, toBlocks_fromBlocks₂₂, Matrix.mul_one, Matrix.mul_zero, add_zero, h2, h4]
  have := congrArg Matrix.det h'
  rwa [Matrix.det_mul, det_fromBlocks_zero₂₁, det_fromBlocks_zero₁₂, Matrix.det_one, Matrix.det_one, one_mul, mul_one] at this

/-- splitting the quadratic form of the inverse along a block -/
theorem schur_quad (M P : Matrix (a ⊕ b) (a ⊕ b) ℂ) (h : M * P = 1) (hP : P.toBlocks₂₂.det ≠ 0) (x y : a ⊕ b → ℂ) :
    x ⬝ᵥ P *ᵥ y = (fun j => (x ᵥ* P) (.inr j)) ⬝ᵥ P.toBlocks₂₂⁻¹ *ᵥ (fun j => (P *ᵥ y) (.inr j)) +
      (fun i => x (.inl i)) ⬝ᵥ M.toBlocks₁₁⁻¹ *ᵥ (fun i => y (.inl i)) := by
  have hu : IsUnit P.toBlocks₂₂.det := isUnit_iff_ne_zero.mpr hP
  have hS : M.toBlocks₁₁⁻¹ = P.toBlocks₁₁ - P.toBlocks₁₂ * P.toBlocks₂₂⁻¹ * P.toBlocks₂₁ := by
    rw [← fromBlocks_toBlocks M, ← fromBlocks_toBlocks P, fromBlocks_multiply, ← fromBlocks_one] at h
    obtain ⟨h1, h2, -, -⟩ := fromBlocks_inj.mp h
    apply Matrix.inv_eq_right_inv
    have h3 : M.toBlocks₁₂ = -(M.toBlocks₁₁ * P.toBlocks₁₂ * P.toBlocks₂₂⁻¹) := by
      have := congrArg (· * P.toBlocks₂₂⁻¹) h2
      simp only [Matrix.add_mul, Matrix.zero_mul, Matrix.mul_nonsing_inv_cancel_right _ _ hu] at this
      exact eq_neg_of_add_eq_zero_right this
    rw [h3] at h1
    rw [← h1, Matrix.mul_sub, Matrix.neg_mul, sub_eq_add_neg, ← Matrix.mul_assoc, ← Matrix.mul_assoc]
  obtain ⟨P11, P12, P21, P22, rfl⟩ : ∃ A B C D, P = fromBlocks A B C D := ⟨_, _, _, _, (fromBlocks_toBlocks P).symm⟩
  simp only [toBlocks_fromBlocks₁₁, toBlocks_fromBlocks₁₂, toBlocks_fromBlocks₂₁, toBlocks_fromBlocks₂₂] at hS hu ⊢
  have hx : x = Sum.elim (fun i => x (.inl i)) (fun j => x (.inr j)) := by ext (i | i) <;> rfl
  have hy : y = Sum.elim (fun i => y (.inl i)) (fun j => y (.inr j)) := by ext (i | i) <;> rfl
  generalize (fun i => x (.inl i)) = x1 at *
  generalize (fun i => x (.inr i)) = x2 at *
  generalize (fun i => y (.inl i)) = y1 at *
  generalize (fun i => y (.inr i)) = y2 at *
  subst hx hy
  rw [hS]
  have e1 : (fun j => (Sum.elim x1 x2 ᵥ* fromBlocks P11 P12 P21 P22) (.inr j)) = x1 ᵥ* P12 + x2 ᵥ* P22 := by
    rw [vecMul_fromBlocks]; rfl
  have e2 : (fun j => (fromBlocks P11 P12 P21 P22 *ᵥ Sum.elim y1 y2) (.inr j)) = P21 *ᵥ y1 + P22 *ᵥ y2 := by
    rw [fromBlocks_mulVec]; rfl
  rw [e1, e2, fromBlocks_mulVec, sumElim_dotProduct_sumElim]
  have hid : P22 * P22⁻¹ = 1 := Matrix.mul_nonsing_inv _ hu
  have hid' : P22⁻¹ * P22 = 1 := Matrix.nonsing_inv_mul _ hu
  simp only [Matrix.mulVec_add, Matrix.sub_mulVec, add_dotProduct, dotProduct_add, dotProduct_sub, Matrix.mulVec_mulVec, hid', Matrix.one_mulVec]
  simp only [← Matrix.dotProduct_mulVec, Matrix.mulVec_mulVec, ← Matrix.mul_assoc, hid, Matrix.one_mul]
  simp only [Sum.elim_comp_inl, Sum.elim_comp_inr]
  ring
end

/-- the quadratures of `T` followed by those of its complement -/
theorem split_equiv (N : ℕ) (S : Finset ℕ) (hS : S ⊆ Finset.range N) :
    ∃ e : (((Finset.range N \ S : Finset ℕ) ⊕ (Finset.range N \ S : Finset ℕ)) ⊕ (S ⊕ S)) ≃ Fin N ⊕ Fin N,
      (∀ p, quad N (e (.inl p)) = modeQuad N (Finset.range N \ S) p) ∧ ∀ p, quad N (e (.inr p)) = modeQuad N S p := by
  have hlt : ∀ k : S, (k : ℕ) < N := fun k => Finset.mem_range.mp (hS k.2)
  have hlt' : ∀ k : (Finset.range N \ S : Finset ℕ), (k : ℕ) < N := fun k => Finset.mem_range.mp (Finset.mem_sdiff.mp k.2).1
  let f : (((Finset.range N \ S : Finset ℕ) ⊕ (Finset.range N \ S : Finset ℕ)) ⊕ (S ⊕ S)) → Fin N ⊕ Fin N :=
    Sum.elim (Sum.map (fun k => ⟨k, hlt' k⟩) fun k => ⟨k, hlt' k⟩) (Sum.map (fun k => ⟨k, hlt k⟩) fun k => ⟨k, hlt k⟩)
  have hf : Function.Bijective f := by
    constructor
    · rintro ((⟨x, hx⟩ | ⟨x, hx⟩) | (⟨x, hx⟩ | ⟨x, hx⟩)) ((⟨y, hy⟩ | ⟨y, hy⟩) | (⟨y, hy⟩ | ⟨y, hy⟩)) h <;> simp [f] at h ⊢ <;>
        first | exact h | (subst h; simp at hx hy; tauto)
    · rintro (⟨x, hx⟩ | ⟨x, hx⟩) <;> by_cases h : x ∈ S
      · exact ⟨.inr (.inl ⟨x, h⟩), rfl⟩
      · exact ⟨.inl (.inl ⟨x, by simp [h, hx]⟩), rfl⟩
      · exact ⟨.inr (.inr ⟨x, h⟩), rfl⟩
      · exact ⟨.inl (.inr ⟨x, by simp [h, hx]⟩), rfl⟩
  refine ⟨Equiv.ofBijective f hf, ?_, ?_⟩
  · rintro (p | p) <;> rfl
  · rintro (p | p) <;> rfl

/-- complementary minors of an array and its inverse, by sets of modes -/
theorem mode_minor (N : ℕ) (sigma P : ℕ → ℕ → ℂ) (h : phase N N sigma * phase N N P = 1) (S : Finset ℕ) (hS : S ⊆ Finset.range N) :
    (phase N N sigma).det * (modeBlock N P S).det = (modeBlock N sigma (Finset.range N \ S)).det := by
  obtain ⟨e, he1, he2⟩ := split_equiv N S hS
  have h' : (phase N N sigma).submatrix e e * (phase N N P).submatrix e e = 1 := by
    rw [submatrix_mul_equiv, h, submatrix_one_equiv]
  have := jacobi_minor _ _ h'
  rw [det_submatrix_equiv_self] at this
  convert this using 2
  · congr 1
    ext p q; simp [modeBlock, phase, toBlocks₂₂, he2]
  · ext p q; simp [modeBlock, phase, toBlocks₁₁, he1]

/-- the quadratic form of the inverse, split by sets of modes -/
theorem mode_quad (N : ℕ) (sigma P : ℕ → ℕ → ℂ) (h : phase N N sigma * phase N N P = 1) (S : Finset ℕ) (hS : S ⊆ Finset.range N)
    (hP : (modeBlock N P S).det ≠ 0) (x y v w : ℕ → ℂ) (hv : phaseVec N v = phaseVec N x ᵥ* phase N N P) (hw : phaseVec N w = phase N N P *ᵥ phaseVec N y) :
    phaseVec N x ⬝ᵥ phase N N P *ᵥ phaseVec N y = modeVec N v S ⬝ᵥ (modeBlock N P S)⁻¹ *ᵥ modeVec N w S +
      modeVec N x (Finset.range N \ S) ⬝ᵥ (modeBlock N sigma (Finset.range N \ S))⁻¹ *ᵥ modeVec N y (Finset.range N \ S) := by
  obtain ⟨e, he1, he2⟩ := split_equiv N S hS
  have h' : (phase N N sigma).submatrix e e * (phase N N P).submatrix e e = 1 := by
    rw [submatrix_mul_equiv, h, submatrix_one_equiv]
  have hb2 : ((phase N N P).submatrix e e).toBlocks₂₂ = modeBlock N P S := by ext p q; simp [modeBlock, phase, toBlocks₂₂, he2]
  have hb1 : ((phase N N sigma).submatrix e e).toBlocks₁₁ = modeBlock N sigma (Finset.range N \ S) := by ext p q; simp [modeBlock, phase, toBlocks₁₁, he1]
  have := schur_quad _ _ h' (by rw [hb2]; exact hP) (phaseVec N x ∘ e) (phaseVec N y ∘ e)
  rw [hb1, hb2] at this
  have e1 : (phase N N P).submatrix e e *ᵥ (phaseVec N y ∘ e) = phaseVec N w ∘ e := by
    rw [hw, submatrix_mulVec_equiv]; simp [Function.comp_assoc]
  have e2 : (phaseVec N x ∘ e) ᵥ* (phase N N P).submatrix e e = phaseVec N v ∘ e := by
    rw [hv, submatrix_vecMul_equiv]; simp [Function.comp_assoc]
  have e3 : (phaseVec N x ∘ e) ⬝ᵥ (phase N N P).submatrix e e *ᵥ (phaseVec N y ∘ e) = phaseVec N x ⬝ᵥ phase N N P *ᵥ phaseVec N y := by
    rw [e1, hw, comp_equiv_dotProduct_comp_equiv]
  rw [e3, e1, e2] at this
  rw [this]
  have g2 : ∀ z : ℕ → ℂ, (fun j => (phaseVec N z ∘ e) (Sum.inr j)) = modeVec N z S := by
    intro z; ext p; simp [phaseVec, modeVec, he2]
  have g1 : ∀ z : ℕ → ℂ, (fun j => (phaseVec N z ∘ e) (Sum.inl j)) = modeVec N z (Finset.range N \ S) := by
    intro z; ext p; simp [phaseVec, modeVec, he1]
  simp only [g1, g2]

/-! ### The state -/

/-- `x + i p` and `x - i p` of the modes in `S` -/
noncomputable def ampConj (S : Finset ℕ) : Matrix (S ⊕ S) (S ⊕ S) ℂ := fromBlocks 1 (Complex.I • 1) 1 (-(Complex.I • 1))

theorem ampConj_map (S : Finset ℕ) : (ampMat S).map (starRingEnd ℂ) = ampConj S := by
  ext p q
  rcases p with p | p <;> rcases q with q | q <;>
    simp only [ampMat, ampConj, map_apply, fromBlocks_apply₁₁, fromBlocks_apply₁₂, fromBlocks_apply₂₁, fromBlocks_apply₂₂, Matrix.neg_apply, Matrix.smul_apply,
      Matrix.one_apply, smul_eq_mul, apply_ite (starRingEnd ℂ), map_one, map_zero, map_neg, map_mul, Complex.conj_I, neg_mul, neg_neg]

theorem ampConj_mul (S : Finset ℕ) : ampConj S * (ampConj S)ᴴ = (2 : ℂ) • 1 ∧ (ampConj S)ᴴ * ampConj S = (2 : ℂ) • 1 := by
  have h2 : ampConj S * (ampConj S)ᴴ = (2 : ℂ) • 1 := by
    rw [ampConj, fromBlocks_conjTranspose, fromBlocks_multiply]
    ext p q
    rcases p with p | p <;> rcases q with q | q <;>
      simp only [fromBlocks_apply₁₁, fromBlocks_apply₁₂, fromBlocks_apply₂₁, fromBlocks_apply₂₂, Matrix.add_apply, Matrix.smul_apply, Matrix.one_mul,
        Matrix.mul_one, Matrix.neg_apply, Matrix.smul_mul, Matrix.mul_smul, Matrix.neg_mul, Matrix.mul_neg, smul_smul, Complex.I_mul_I, neg_smul,
        conjTranspose_smul, conjTranspose_neg, conjTranspose_one, Complex.star_def, Complex.conj_I,
        one_smul, neg_neg, smul_eq_mul, Matrix.one_apply, Sum.inl.injEq, Sum.inr.injEq, reduceCtorEq, if_false] <;> split_ifs <;> norm_num
  refine ⟨h2, ?_⟩
  have h3 : ampConj S * ((1 / 2 : ℂ) • (ampConj S)ᴴ) = 1 := by rw [Matrix.mul_smul, h2, smul_smul]; norm_num
  have h4 := mul_eq_one_comm.mp h3
  rw [Matrix.smul_mul] at h4
  rw [← h4, smul_smul]; norm_num

/-- `V ≥ 0` for every physical covariance matrix -/
theorem physical_posSemidef {N : ℕ} (V : Matrix (Fin N ⊕ Fin N) (Fin N ⊕ Fin N) ℝ) (hbar : ℝ) (h : Physical V hbar) : V.PosSemidef := by
  have h1 := h.2
  have h2 := conj_uncertainty V hbar h
  have h3 := h1.add h2
  rw [← real_posSemidef_map]
  have e : V.map Complex.ofReal = (1 / 2 : ℝ) • (V.map Complex.ofReal + (Complex.I * (hbar / 2 : ℝ)) • omega N + (V.map Complex.ofReal - (Complex.I * (hbar / 2 : ℝ)) • omega N)) := by
    ext i j
    simp
    ring
  rw [e]
  exact h3.smul (by norm_num)

section
variable (N : ℕ) (mu : ℕ → ℝ) (cov : ℕ → ℕ → ℝ) (hbar : ℝ)

theorem Wsub_posDef (hV : (phase N N cov).PosSemidef) (hh : 0 < hbar) (S : Finset ℕ) (hS : S ⊆ Finset.range N) : (Wsub N cov hbar S).PosDef := by
  let g : S ⊕ S → Fin N ⊕ Fin N := Sum.map (fun k => ⟨k, Finset.mem_range.mp (hS k.2)⟩) fun k => ⟨k, Finset.mem_range.mp (hS k.2)⟩
  have hq : ∀ p, quad N (g p) = modeQuad N S p := by rintro (p | p) <;> rfl
  have h1 := hV.submatrix g
  have h2 : ((hbar / 2) • (1 : Matrix (S ⊕ S) (S ⊕ S) ℝ)).PosDef := PosDef.one.smul (by positivity)
  have h3 := (h2.posSemidef_add h1).smul (inv_pos.mpr hh)
  convert h3 using 1
  ext p q
  simp [Wsub, phase, hq, Matrix.one_apply]
  ring

/-- the array `sigma` -/
noncomputable abbrev sigmaArr : ℕ → ℕ → ℂ := fun a b => (starRingEnd ℂ) (Qmat N cov hbar a b)

theorem sigma_block (S : Finset ℕ) : modeBlock N (sigmaArr N cov hbar) S = (Qsub N cov hbar S).map (starRingEnd ℂ) := rfl

theorem sigma_mul_amp (hsym : ∀ i < 2 * N, ∀ j < 2 * N, cov i j = cov j i) (hh : 0 < hbar) (S : Finset ℕ) (hS : S ⊆ Finset.range N) :
    modeBlock N (sigmaArr N cov hbar) S * ampConj S = ampConj S * (Wsub N cov hbar S).map Complex.ofReal := by
  have := congrArg (fun M => M.map (starRingEnd ℂ)) (Qsub_mul_amp N cov hsym hbar hh S hS)
  simp only [Matrix.map_mul] at this
  rw [sigma_block, ← ampConj_map, this]
  congr 1
  ext p q
  simp

theorem sigma_eq (hsym : ∀ i < 2 * N, ∀ j < 2 * N, cov i j = cov j i) (hh : 0 < hbar) (S : Finset ℕ) (hS : S ⊆ Finset.range N) :
    modeBlock N (sigmaArr N cov hbar) S = (1 / 2 : ℝ) • (ampConj S * (Wsub N cov hbar S).map Complex.ofReal * (ampConj S)ᴴ) := by
  rw [← sigma_mul_amp N cov hbar hsym hh S hS, Matrix.mul_assoc, (ampConj_mul S).1]
  ext p q
  simp

theorem sigma_posDef (hV : (phase N N cov).PosSemidef) (hsym : ∀ i < 2 * N, ∀ j < 2 * N, cov i j = cov j i) (hh : 0 < hbar) (S : Finset ℕ)
    (hS : S ⊆ Finset.range N) : (modeBlock N (sigmaArr N cov hbar) S).PosDef := by
  have hW := Wsub_posDef N cov hbar hV hh S hS
  have hWc : ((Wsub N cov hbar S).map Complex.ofReal).PosDef := by
    have hs : ((Wsub N cov hbar S).map Complex.ofReal).PosSemidef := (real_posSemidef_map _).mpr hW.posSemidef
    rw [hs.posDef_iff_isUnit, Matrix.isUnit_iff_isUnit_det]
    have : ((Wsub N cov hbar S).map Complex.ofReal).det = ((Wsub N cov hbar S).det : ℝ) := (RingHom.map_det Complex.ofRealHom (Wsub N cov hbar S)).symm
    rw [this, isUnit_iff_ne_zero]
    exact_mod_cast hW.det_pos.ne'
  rw [sigma_eq N cov hbar hsym hh S hS]
  refine PosDef.smul ?_ (by norm_num)
  have hU : IsUnit (ampConj S) := by
    rw [Matrix.isUnit_iff_isUnit_det, isUnit_iff_ne_zero]
    intro h
    have := congrArg Matrix.det (ampConj_mul S).1
    rw [Matrix.det_mul, h, zero_mul, Matrix.det_smul, Matrix.det_one, mul_one] at this
    exact (pow_ne_zero _ (two_ne_zero)) this.symm
  exact hU.posDef_star_right_conjugate_iff.mpr hWc

theorem sigma_det (hsym : ∀ i < 2 * N, ∀ j < 2 * N, cov i j = cov j i) (hh : 0 < hbar) (S : Finset ℕ) (hS : S ⊆ Finset.range N) :
    (modeBlock N (sigmaArr N cov hbar) S).det = ((Wsub N cov hbar S).det : ℝ) := by
  rw [sigma_block]
  have := RingHom.map_det (starRingEnd ℂ) (Qsub N cov hbar S)
  rw [Qsub_det N cov hsym hbar hh S hS, Complex.conj_ofReal] at this
  exact this.symm

/-- the array `alpha` -/
noncomputable abbrev alphaArr : ℕ → ℂ := fun a =>
  (if a < N then (mu a : ℂ) + Complex.I * mu (N + a) else (mu (a - N) : ℂ) - Complex.I * mu (N + (a - N))) / (Real.sqrt (2 * hbar) : ℝ)

theorem alpha_vec (S : Finset ℕ) (hS : S ⊆ Finset.range N) :
    modeVec N (alphaArr N mu hbar) S = (1 / (Real.sqrt (2 * hbar) : ℝ) : ℂ) • (ampConj S *ᵥ fun p => ((modeVec N mu S p : ℝ) : ℂ)) := by
  have e : (fun p => ((modeVec N mu S p : ℝ) : ℂ)) = Sum.elim (fun k : S => (mu k : ℂ)) (fun k : S => (mu (N + k) : ℂ)) := by ext (p | p) <;> rfl
  rw [e, ampConj, fromBlocks_mulVec]
  ext p
  rcases p with ⟨p, hp⟩ | ⟨p, hp⟩
  · have : p < N := Finset.mem_range.mp (hS hp)
    simp only [modeVec, modeQuad, alphaArr, Sum.elim_inl, Sum.elim_inr, this, if_true, Pi.smul_apply, Pi.add_apply, Matrix.one_mulVec, Matrix.smul_mulVec, Function.comp,
      smul_eq_mul]
    ring
  · have h2 : ¬ (N + p < N) := by omega
    simp only [modeVec, modeQuad, alphaArr, Sum.elim_inr, Sum.elim_inl, h2, if_false, Pi.smul_apply, Pi.add_apply, Matrix.one_mulVec, Matrix.smul_mulVec, Matrix.neg_mulVec,
      Pi.neg_apply, Function.comp, smul_eq_mul, Nat.add_sub_cancel_left]
    ring

/-- the exponent of the vacuum probability of the modes in `S` -/
noncomputable def expo (S : Finset ℕ) : ℝ := modeVec N mu S ⬝ᵥ (modeBlock N cov S + (hbar / 2) • 1)⁻¹ *ᵥ modeVec N mu S

theorem alpha_quad (hV : (phase N N cov).PosSemidef) (hsym : ∀ i < 2 * N, ∀ j < 2 * N, cov i j = cov j i) (hh : 0 < hbar) (S : Finset ℕ)
    (hS : S ⊆ Finset.range N) :
    modeVec N (fun a => (starRingEnd ℂ) (alphaArr N mu hbar a)) S ⬝ᵥ (modeBlock N (sigmaArr N cov hbar) S)⁻¹ *ᵥ modeVec N (alphaArr N mu hbar) S =
      (expo N mu cov hbar S : ℝ) := by
  have hW := Wsub_posDef N cov hbar hV hh S hS
  have hWu : IsUnit (Wsub N cov hbar S).det := isUnit_iff_ne_zero.mpr hW.det_pos.ne'
  have hσ := sigma_posDef N cov hbar hV hsym hh S hS
  have hσu : IsUnit (modeBlock N (sigmaArr N cov hbar) S).det := isUnit_iff_ne_zero.mpr hσ.det_pos.ne'
  have hinvW : Wsub N cov hbar S = (1 / hbar) • (modeBlock N cov S + (hbar / 2) • 1) := by
    ext p q
    simp [Wsub, modeBlock, Matrix.one_apply]
    ring
  have hWi : (Wsub N cov hbar S)⁻¹ = hbar • (modeBlock N cov S + (hbar / 2) • 1)⁻¹ := by
    apply Matrix.inv_eq_right_inv
    have hu : IsUnit (modeBlock N cov S + (hbar / 2) • (1 : Matrix (S ⊕ S) (S ⊕ S) ℝ)).det := by
      rw [hinvW, det_smul] at hWu
      exact isUnit_of_mul_isUnit_right hWu
    rw [hinvW, Matrix.smul_mul, Matrix.mul_smul, Matrix.mul_nonsing_inv _ hu, smul_smul, one_div_mul_cancel hh.ne', one_smul]
  set m : S ⊕ S → ℂ := fun p => ((modeVec N mu S p : ℝ) : ℂ) with hm
  set c : ℂ := (1 / (Real.sqrt (2 * hbar) : ℝ) : ℂ) with hc
  have hcc : c * c = 1 / (2 * hbar) := by
    rw [hc, div_mul_div_comm, one_mul, ← Complex.ofReal_mul, Real.mul_self_sqrt (by positivity)]
    push_cast; rfl
  have hcs : (starRingEnd ℂ) c = c := by rw [hc]; simp
  have h1 : modeVec N (fun a => (starRingEnd ℂ) (alphaArr N mu hbar a)) S = c • (m ᵥ* (ampConj S)ᴴ) := by
    have := alpha_vec N mu hbar S hS
    have h2 : modeVec N (fun a => (starRingEnd ℂ) (alphaArr N mu hbar a)) S = star (modeVec N (alphaArr N mu hbar) S) := rfl
    rw [h2, this, star_smul, star_mulVec]
    have h3 : star m = m := by ext p; simp [hm]
    rw [← hm, h3]
    congr 1
  have hinv : (modeBlock N (sigmaArr N cov hbar) S)⁻¹ * ampConj S = ampConj S * ((Wsub N cov hbar S)⁻¹).map Complex.ofReal := by
    have e := sigma_mul_amp N cov hbar hsym hh S hS
    have hw : (Wsub N cov hbar S).map Complex.ofReal * ((Wsub N cov hbar S)⁻¹).map Complex.ofReal = 1 := by
      have := congrArg (fun M : Matrix (S ⊕ S) (S ⊕ S) ℝ => M.map Complex.ofRealHom) (Matrix.mul_nonsing_inv _ hWu)
      simp only [Matrix.map_mul] at this
      have e1 : (1 : Matrix (S ⊕ S) (S ⊕ S) ℝ).map Complex.ofRealHom = 1 := by ext i j; simp [Matrix.one_apply, apply_ite]
      rw [e1] at this
      exact this
    have h4 := congrArg (fun M => (modeBlock N (sigmaArr N cov hbar) S)⁻¹ * M * ((Wsub N cov hbar S)⁻¹).map Complex.ofReal) e
    simp only [← Matrix.mul_assoc, Matrix.nonsing_inv_mul _ hσu, Matrix.one_mul] at h4
    rw [Matrix.mul_assoc _ _ (((Wsub N cov hbar S)⁻¹).map Complex.ofReal), hw, Matrix.mul_one] at h4
    exact h4.symm
  rw [h1, alpha_vec N mu hbar S hS, ← hm, ← hc, Matrix.mulVec_smul, smul_dotProduct, dotProduct_smul, Matrix.mulVec_mulVec, hinv, ← Matrix.dotProduct_mulVec,
    Matrix.mulVec_mulVec, ← Matrix.mul_assoc, (ampConj_mul S).2, Matrix.smul_mul, Matrix.one_mul, Matrix.smul_mulVec, dotProduct_smul, hWi]
  simp only [smul_eq_mul]
  rw [← mul_assoc, ← mul_assoc, hcc]
  have e2 : m ⬝ᵥ (hbar • (modeBlock N cov S + (hbar / 2) • 1)⁻¹).map Complex.ofReal *ᵥ m = ((hbar * expo N mu cov hbar S : ℝ) : ℂ) := by
    rw [expo]
    simp only [dotProduct, mulVec, Matrix.map_apply, Matrix.smul_apply, hm, Complex.ofReal_mul, Complex.ofReal_sum, Finset.mul_sum, smul_eq_mul]
    refine Finset.sum_congr rfl fun i _ => Finset.sum_congr rfl fun j _ => ?_
    ring
  rw [e2]
  have : (hbar : ℂ) ≠ 0 := by exact_mod_cast hh.ne'
  push_cast
  field_simp

/-- an `N`-mode array restricted to all modes -/
theorem posDef_phase (A : ℕ → ℕ → ℂ) (h : (modeBlock N A (Finset.range N)).PosDef) : (phase N N A).PosDef := by
  let g : Fin N ⊕ Fin N → (Finset.range N) ⊕ (Finset.range N) := Sum.map (fun k => ⟨k, Finset.mem_range.mpr k.2⟩) fun k => ⟨k, Finset.mem_range.mpr k.2⟩
  have hg : Function.Injective g := by
    apply Function.Injective.sumMap
    · intro a b h; exact Fin.ext (by simpa using h)
    · intro a b h; exact Fin.ext (by simpa using h)
  have hq : ∀ p, modeQuad N (Finset.range N) (g p) = quad N p := by rintro (p | p) <;> rfl
  have := h.submatrix (e := g) hg
  convert this using 1
  ext p q
  simp only [modeBlock, of_apply, submatrix_apply, phase, hq]

theorem one_sub_block (P : ℕ → ℕ → ℂ) (S : Finset ℕ) (hS : S ⊆ Finset.range N) :
    1 - modeBlock N (fun a b => eye a b - P a b) S = modeBlock N P S := by
  have hinj : ∀ p q, modeQuad N S p = modeQuad N S q ↔ p = q := by
    intro p q
    constructor
    · rcases p with ⟨p, hp⟩ | ⟨p, hp⟩ <;> rcases q with ⟨q, hq⟩ | ⟨q, hq⟩ <;> simp only [modeQuad, Sum.elim_inl, Sum.elim_inr, Sum.inl.injEq, Sum.inr.injEq, Subtype.mk.injEq, reduceCtorEq] <;>
        intro h
      · exact h
      · have := Finset.mem_range.mp (hS hp); omega
      · have := Finset.mem_range.mp (hS hq); omega
      · omega
    · rintro rfl; rfl
  ext p q
  simp only [Matrix.sub_apply, modeBlock, of_apply, Matrix.one_apply, eye, hinj]
  ring

/-- the modulus of a torontonian term of the undisplaced state -/
theorem zero_term (Q P : ℕ → ℕ → ℂ) (hQ : (phase N N Q).PosDef) (hP : phase N N P = (phase N N Q)⁻¹) (S : Finset ℕ) (hS : S ⊆ Finset.range N) :
    0 < (modeBlock N Q (Finset.range N \ S)).det.re ∧ (modeBlock N Q (Finset.range N \ S)).det.re = (phase N N Q).det.re * (modeBlock N P S).det.re ∧
      0 < (modeBlock N P S).det.re ∧ (modeBlock N P S).det ≠ 0 ∧ 0 < (phase N N Q).det.re := by
  have hu : IsUnit (phase N N Q).det := isUnit_iff_ne_zero.mpr hQ.det_pos.ne'
  have hPd : (phase N N P).PosDef := by rw [hP]; exact hQ.inv
  have h1 : (1 - phase N N (fun a b => eye a b - P a b)) = phase N N P := by
    ext p q
    have hq : (quad N p = quad N q) ↔ p = q := ⟨fun h => quad_injective N h, fun h => by rw [h]⟩
    simp only [Matrix.sub_apply, phase, of_apply, Matrix.one_apply, eye, hq]
    ring
  have hb := modeBlock_posDef N (fun a b => eye a b - P a b) (by rw [h1]; exact hPd) S hS
  rw [one_sub_block N P S hS] at hb
  have hb' := det_re_pos _ hb
  have hq' := det_re_pos _ hQ
  have hm := mode_minor N Q P (by rw [hP, Matrix.mul_nonsing_inv _ hu]) S hS
  rw [hb'.2, hq'.2, ← Complex.ofReal_mul] at hm
  have hm' := congrArg Complex.re hm
  rw [Complex.ofReal_re] at hm'
  refine ⟨?_, hm'.symm, hb'.1, hb.det_pos.ne', hq'.1⟩
  rw [← hm']
  exact mul_pos hq'.1 hb'.1

/-- one term of the sum of the displaced branch is a vacuum probability -/
theorem displaced_term (hV : (phase N N cov).PosSemidef) (hsym : ∀ i < 2 * N, ∀ j < 2 * N, cov i j = cov j i) (hh : 0 < hbar) (P : ℕ → ℕ → ℂ)
    (hP : phase N N P = (phase N N (sigmaArr N cov hbar))⁻¹) (S : Finset ℕ) (hS : S ⊆ Finset.range N) :
    ((Real.exp (-(1 / 2) * expo N mu cov hbar (Finset.range N)) / Real.sqrt (phase N N (sigmaArr N cov hbar)).det.re : ℝ) : ℂ) *
      ltorTerm N (fun a b => eye a b - P a b) (fun a => (starRingEnd ℂ) (dot (2 * N) (P a) (alphaArr N mu hbar))) S =
      (vacProbD N mu cov hbar (Finset.range N \ S) : ℝ) := by
  have hσ : (phase N N (sigmaArr N cov hbar)).PosDef := posDef_phase N _ (sigma_posDef N cov hbar hV hsym hh _ subset_rfl)
  have hu : IsUnit (phase N N (sigmaArr N cov hbar)).det := isUnit_iff_ne_zero.mpr hσ.det_pos.ne'
  have hPσ : phase N N (sigmaArr N cov hbar) * phase N N P = 1 := by rw [hP, Matrix.mul_nonsing_inv _ hu]
  obtain ⟨hT, hdet, hb, hbne, hq⟩ := zero_term N _ P hσ hP S hS
  have hTs : Finset.range N \ S ⊆ Finset.range N := Finset.sdiff_subset
  set g : ℕ → ℂ := fun a => (starRingEnd ℂ) (dot (2 * N) (P a) (alphaArr N mu hbar)) with hg
  have hw : phaseVec N (fun a => (starRingEnd ℂ) (g a)) = phase N N P *ᵥ phaseVec N (alphaArr N mu hbar) := by
    ext p
    simp only [phaseVec, hg, Complex.conj_conj, dot_sum, mulVec, dotProduct, phase, of_apply]
    rw [← sum_quad]
  have hPh : (phase N N P)ᴴ = phase N N P := by
    have : (phase N N P).PosDef := by rw [hP]; exact hσ.inv
    exact this.1
  have hv : phaseVec N g = phaseVec N (fun a => (starRingEnd ℂ) (alphaArr N mu hbar a)) ᵥ* phase N N P := by
    have e1 : phaseVec N g = star (phaseVec N (fun a => (starRingEnd ℂ) (g a))) := by ext p; simp [phaseVec]
    rw [e1, hw, star_mulVec, hPh]; rfl
  have hquad := mode_quad N _ P hPσ S hS hbne _ _ _ _ hv hw
  have hquad0 := mode_quad N _ P hPσ ∅ (by simp) (by rw [Matrix.det_isEmpty]; exact one_ne_zero) _ _ _ _ hv hw
  have hz : modeVec N g ∅ ⬝ᵥ (modeBlock N P ∅)⁻¹ *ᵥ modeVec N (fun a => (starRingEnd ℂ) (g a)) ∅ = 0 := by simp [dotProduct]
  rw [hz, zero_add, alpha_quad N mu cov hbar hV hsym hh _ Finset.sdiff_subset, Finset.sdiff_empty] at hquad0
  rw [hquad0, alpha_quad N mu cov hbar hV hsym hh _ hTs] at hquad
  have hterm : modeVec N g S ⬝ᵥ (modeBlock N P S)⁻¹ *ᵥ (fun p => (starRingEnd ℂ) (modeVec N g S p)) =
      ((expo N mu cov hbar (Finset.range N) - expo N mu cov hbar (Finset.range N \ S) : ℝ) : ℂ) := by
    push_cast
    rw [hquad, add_sub_cancel_right]; rfl
  rw [ltorTerm, one_sub_block N P S hS, hterm, vacProbD, vacProb_Qsub N cov hsym hbar hh _ hTs]
  have hd : (Qsub N cov hbar (Finset.range N \ S)).det.re = (modeBlock N (sigmaArr N cov hbar) (Finset.range N \ S)).det.re := by
    rw [Qsub_det N cov hsym hbar hh _ hTs, sigma_det N cov hbar hsym hh _ hTs]
  rw [hd, hdet, Real.sqrt_mul hq.le]
  have e1 : (1 / 2 : ℂ) * ((expo N mu cov hbar (Finset.range N) - expo N mu cov hbar (Finset.range N \ S) : ℝ) : ℂ) =
      ((1 / 2 * (expo N mu cov hbar (Finset.range N) - expo N mu cov hbar (Finset.range N \ S)) : ℝ) : ℂ) := by push_cast; ring
  rw [e1, ← Complex.ofReal_exp, ← Complex.ofReal_div, ← Complex.ofReal_mul]
  congr 1
  rw [div_mul_div_comm, ← Real.exp_add, ← expo, mul_one_div]
  congr 2
  ring

/-! ### Reductions and click patterns -/

/-- the loop torontonian of the reduced arrays, in terms of the full arrays -/
theorem ltor_reduction (s r : GState ℂ) (K : List ℕ) (hK : K.Nodup) (hR : IsReduction N s K r) :
    loopTorontonian K.length r.cov r.mu = ∑ S ∈ K.toFinset.powerset, (-1) ^ (K.length - S.card) * ltorTerm N s.cov s.mu S := by
  rw [loopTorontonian_term]
  have hinj : ∀ x < K.length, ∀ y < K.length, K.getD x 0 = K.getD y 0 → x = y := by
    intro x hx y hy h
    rw [List.getD_eq_getElem _ _ hx, List.getD_eq_getElem _ _ hy] at h
    exact (List.Nodup.getElem_inj_iff hK).mp h
  have hlt : ∀ S ∈ (Finset.range K.length).powerset, ∀ x ∈ S, x < K.length := fun S hS x hx => Finset.mem_range.mp (Finset.mem_powerset.mp hS hx)
  refine Finset.sum_bij (fun S _ => S.image fun x => K.getD x 0) ?_ ?_ ?_ ?_
  · intro S hS
    rw [Finset.mem_powerset]
    intro x hx
    obtain ⟨y, hy, rfl⟩ := Finset.mem_image.mp hx
    have := hlt S hS y hy
    rw [List.getD_eq_getElem _ _ this]
    exact List.mem_toFinset.mpr (List.getElem_mem _)
  · intro S hS S' hS' h
    have key : ∀ S ∈ (Finset.range K.length).powerset, ∀ S' ∈ (Finset.range K.length).powerset,
        (S.image fun x => K.getD x 0) = (S'.image fun x => K.getD x 0) → S ⊆ S' := by
      intro S hS S' hS' h x hx
      have : K.getD x 0 ∈ S'.image fun x => K.getD x 0 := h ▸ Finset.mem_image_of_mem _ hx
      obtain ⟨y, hy, e⟩ := Finset.mem_image.mp this
      rw [hinj x (hlt S hS x hx) y (hlt S' hS' y hy) e.symm]
      exact hy
    exact Finset.Subset.antisymm (key S hS S' hS' h) (key S' hS' S hS h.symm)
  · intro S hS
    rw [Finset.mem_powerset] at hS
    refine ⟨(Finset.range K.length).filter fun x => K.getD x 0 ∈ S, ?_, ?_⟩
    · exact Finset.mem_powerset.mpr (Finset.filter_subset _ _)
    · ext x
      simp only [Finset.mem_image, Finset.mem_filter, Finset.mem_range]
      constructor
      · rintro ⟨y, ⟨-, h⟩, rfl⟩; exact h
      · intro hx
        obtain ⟨y, hy, e⟩ := List.getElem_of_mem (List.mem_toFinset.mp (hS hx))
        exact ⟨y, ⟨hy, by rw [List.getD_eq_getElem _ _ hy, e]; exact hx⟩, by rw [List.getD_eq_getElem _ _ hy, e]⟩
  · intro S hS
    set T := S.image fun x => K.getD x 0 with hTdef
    have hcard : T.card = S.card := Finset.card_image_of_injOn fun x hx y hy h => hinj x (hlt S hS x hx) y (hlt S hS y hy) h
    rw [hcard]
    congr 1
    let f : S → T := fun x => ⟨K.getD x 0, Finset.mem_image_of_mem _ x.2⟩
    have hf : Function.Bijective f := by
      constructor
      · intro x y h
        exact Subtype.ext (hinj x (hlt S hS x x.2) y (hlt S hS y y.2) (by simpa [f] using h))
      · rintro ⟨y, hy⟩
        obtain ⟨x, hx, e⟩ := Finset.mem_image.mp hy
        exact ⟨⟨x, hx⟩, Subtype.ext e⟩
    let e : S ≃ T := Equiv.ofBijective f hf
    have he : ∀ x : S, ((e x : T) : ℕ) = K.getD x 0 := fun x => rfl
    have hblock : 1 - modeBlock K.length r.cov S = (1 - modeBlock N s.cov T).submatrix (Equiv.sumCongr e e) (Equiv.sumCongr e e) := by
      rw [Matrix.submatrix_sub]
      simp only [Pi.sub_apply]
      rw [submatrix_one_equiv]
      congr 1
      ext p q
      rcases p with p | p <;> rcases q with q | q
      · have := hR.xx p (hlt S hS p p.2) q (hlt S hS q q.2); simpa [modeBlock, modeQuad, he] using this
      · have := hR.xp p (hlt S hS p p.2) q (hlt S hS q q.2); simpa [modeBlock, modeQuad, he] using this
      · have := hR.px p (hlt S hS p p.2) q (hlt S hS q q.2); simpa [modeBlock, modeQuad, he] using this
      · have := hR.pp p (hlt S hS p p.2) q (hlt S hS q q.2); simpa [modeBlock, modeQuad, he] using this
    have hvec : modeVec K.length r.mu S = modeVec N s.mu T ∘ Equiv.sumCongr e e := by
      ext p
      rcases p with p | p
      · have := (hR.mean p (hlt S hS p p.2)).1; simpa [modeVec, modeQuad, he] using this
      · have := (hR.mean p (hlt S hS p p.2)).2; simpa [modeVec, modeQuad, he] using this
    rw [ltorTerm, ltorTerm, hblock, det_submatrix_equiv_self, hvec, inv_submatrix_equiv]
    congr 3
    have hs : (fun p => (starRingEnd ℂ) ((modeVec N s.mu T ∘ Equiv.sumCongr e e) p)) = (fun p => (starRingEnd ℂ) (modeVec N s.mu T p)) ∘ Equiv.sumCongr e e := rfl
    rw [hs, submatrix_mulVec_equiv, Function.comp_assoc, Equiv.self_comp_symm, Function.comp_id, comp_equiv_dotProduct_comp_equiv]

/-- the set of detectors that click -/
def clickSet (pattern : List ℕ) : Finset ℕ := (Finset.range pattern.length).filter fun i => pattern.getD i 0 = 1

theorem click_sum (F : Finset ℕ → ℝ) (C : Finset ℕ) (hC : C ⊆ Finset.range N) :
    ∑ S ∈ C.powerset, (-1 : ℝ) ^ (C.card - S.card) * F (Finset.range N \ S) = ∑ Z ∈ C.powerset, (-1) ^ Z.card * F ((Finset.range N \ C) ∪ Z) := by
  refine Finset.sum_bij (fun S _ => C \ S) ?_ ?_ ?_ ?_
  · intro S _; exact Finset.mem_powerset.mpr Finset.sdiff_subset
  · intro S hS S' hS' h
    rw [Finset.mem_powerset] at hS hS'
    rw [← Finset.sdiff_sdiff_eq_self hS, h, Finset.sdiff_sdiff_eq_self hS']
  · intro Z hZ
    rw [Finset.mem_powerset] at hZ
    exact ⟨C \ Z, Finset.mem_powerset.mpr Finset.sdiff_subset, Finset.sdiff_sdiff_eq_self hZ⟩
  · intro S hS
    rw [Finset.mem_powerset] at hS
    rw [Finset.card_sdiff_of_subset hS]
    congr 2
    ext x
    simp only [Finset.mem_sdiff, Finset.mem_union, Finset.mem_range]
    constructor
    · rintro ⟨h1, h2⟩
      by_cases hx : x ∈ C
      · exact .inr ⟨hx, h2⟩
      · exact .inl ⟨h1, hx⟩
    · rintro (⟨h1, h2⟩ | ⟨h1, h2⟩)
      · exact ⟨h1, fun h => h2 (hS h)⟩
      · exact ⟨Finset.mem_range.mp (hC h1), h2⟩

end

/-- the index list of the clicking detectors -/
def clickList (pattern : List ℕ) : List ℕ := (List.range pattern.length).filter fun i => pattern.getD i 0 = 1

theorem clickList_toFinset (pattern : List ℕ) : (clickList pattern).toFinset = clickSet pattern := by
  ext x; simp [clickList, clickSet]

theorem clickList_nodup (pattern : List ℕ) : (clickList pattern).Nodup := List.nodup_range.filter _

theorem clickList_lt (pattern : List ℕ) : ∀ x ∈ clickList pattern, x < pattern.length := by
  intro x hx
  simpa using (List.mem_filter.mp hx).1

theorem flatMap_filter {α : Type} (l : List α) (p : α → Bool) : (l.flatMap fun i => if p i then [i] else []) = l.filter p := by
  induction l with
  | nil => rfl
  | cons a t ih => rw [List.flatMap_cons, ih, List.filter_cons]; split_ifs <;> rfl

theorem reductionRows_pattern (pattern : List ℕ) (h01 : ∀ x ∈ pattern, x = 0 ∨ x = 1) :
    reductionRows (pattern ++ pattern) = clickList pattern ++ (clickList pattern).map (pattern.length + ·) := by
  have h01' : ∀ i, pattern.getD i 0 = 0 ∨ pattern.getD i 0 = 1 := by
    intro i
    by_cases hi : i < pattern.length
    · rw [List.getD_eq_getElem _ _ hi]; exact h01 _ (List.getElem_mem _)
    · left; rw [List.getD_eq_default _ _ (by omega)]
  have hrep : ∀ (k x : ℕ), (k = 0 ∨ k = 1) → List.replicate k x = if decide (k = 1) then [x] else [] := by
    rintro k x (rfl | rfl) <;> rfl
  unfold reductionRows clickList
  rw [← List.flatMap_def, List.length_append, List.range_add, List.flatMap_append]
  congr 1
  · rw [← flatMap_filter]
    refine List.flatMap_congr fun i hi => ?_
    have hi' : i < pattern.length := by simpa using hi
    rw [List.getD_append _ _ _ _ hi', hrep _ _ (h01' i)]
  · rw [List.flatMap_map, ← flatMap_filter, List.map_flatMap]
    refine List.flatMap_congr fun i hi => ?_
    rw [List.getD_append_right _ _ _ _ (by omega), Nat.add_sub_cancel_left, hrep _ _ (h01' i)]
    split_ifs <;> rfl

theorem clickList_full (pattern : List ℕ) : (clickList pattern).length ≠ pattern.length ∨ clickList pattern = List.range pattern.length := by
  by_cases h : (clickList pattern).length = pattern.length
  · right
    exact (List.filter_sublist).eq_of_length (by rw [← clickList, h, List.length_range])
  · exact .inl h

theorem reducedGaussianInt_ok (N : ℕ) (s : GState ℂ) (hs : s.len = 2 * N) (hN : N ≠ 0) (pattern : List ℕ) (hl : pattern.length = N) :
    ∃ r, reducedGaussianInt s (clickList pattern) = .ok r ∧ IsReduction N s (clickList pattern) r := by
  have hN2 : s.len / 2 = N := by omega
  unfold reducedGaussianInt
  rw [hN2]
  by_cases h : clickList pattern = []
  · rw [if_pos ⟨h, hN⟩, h]
    refine ⟨_, rfl, ?_⟩
    constructor <;> simp
  · rw [if_neg (fun hc => h hc.1)]
    exact reducedGaussian_partial N s hs _ h (fun m hm => by rw [← hl]; exact clickList_lt pattern m hm) (by rw [← hl]; exact clickList_full pattern)

theorem one_sub_phase (N : ℕ) (P : ℕ → ℕ → ℂ) : (1 - phase N N (fun a b => eye a b - P a b)) = phase N N P := by
  ext p q
  have hq : (quad N p = quad N q) ↔ p = q := ⟨fun h => quad_injective N h, fun h => by rw [h]⟩
  simp only [Matrix.sub_apply, phase, of_apply, Matrix.one_apply, eye, hq]
  ring

/-- a reduced array of a positive definite one is positive definite -/
theorem reduction_posDef (N : ℕ) (s r : GState ℂ) (K : List ℕ) (hK : K.Nodup) (hKN : ∀ x ∈ K, x < N) (hR : IsReduction N s K r) (h : (1 - phase N N s.cov).PosDef) :
    (1 - phase K.length K.length r.cov).PosDef := by
  have hb := modeBlock_posDef N s.cov h K.toFinset (fun x hx => Finset.mem_range.mpr (hKN x (List.mem_toFinset.mp hx)))
  let e : Fin K.length ≃ K.toFinset := (hK.getEquiv K).trans (Equiv.subtypeEquivRight fun x => List.mem_toFinset.symm)
  have he : ∀ i : Fin K.length, ((e i : K.toFinset) : ℕ) = K.getD i 0 := by
    intro i
    rw [List.getD_eq_getElem _ _ i.2]; rfl
  have := hb.submatrix (e := Equiv.sumCongr e e) (Equiv.sumCongr e e).injective
  convert this using 1
  rw [Matrix.submatrix_sub]
  simp only [Pi.sub_apply]
  rw [submatrix_one_equiv]
  congr 1
  ext p q
  rcases p with i | i <;> rcases q with j | j
  · have := hR.xx i i.2 j j.2; simpa [phase, quad, modeBlock, modeQuad, he] using this
  · have := hR.xp i i.2 j j.2; simpa [phase, quad, modeBlock, modeQuad, he] using this
  · have := hR.px i i.2 j j.2; simpa [phase, quad, modeBlock, modeQuad, he] using this
  · have := hR.pp i i.2 j j.2; simpa [phase, quad, modeBlock, modeQuad, he] using this

variable {chol : ℕ → (ℕ → ℕ → ℂ) → Except PyErr (ℕ → ℕ → ℂ)}

theorem expo_zero (N : ℕ) (cov : ℕ → ℕ → ℝ) (hbar : ℝ) (S : Finset ℕ) : vacProbD N (fun _ => 0) cov hbar S = vacProb N cov hbar S := by
  have : modeVec N (fun _ => (0 : ℝ)) S = 0 := rfl
  rw [vacProbD, this, zero_dotProduct, mul_zero, Real.exp_zero, one_mul]

/-- C20: for every physical state and every click pattern, `threshold_detection_prob` returns the probability of that pattern, in both branches;
when every mean is within the tolerance of zero the means are replaced by zero. -/
theorem thresholdProb_correct (hchol : CholeskyContract chol) (closeMu : ℝ → Bool) (N : ℕ) (s : GState ℝ) (hs : s.len = 2 * N) (hbar : ℝ) (hh : 0 < hbar)
    (hV : Physical (phase N N s.cov) hbar) (pattern : List ℕ) (hl : pattern.length = N) (h01 : ∀ x ∈ pattern, x = 0 ∨ x = 1) :
    thresholdProb chol closeMu s pattern hbar =
      .ok (clickProb N (if ∀ i < 2 * N, closeMu (s.mu i) = true then fun _ => 0 else s.mu) s.cov hbar (clickSet pattern) : ℝ) := by
  have hsym := (isSymm_phase N s.cov).mp hV.1
  have hVp := physical_posSemidef _ _ hV
  have hn : s.len / 2 = N := by omega
  have hCsub : clickSet pattern ⊆ Finset.range N := by rw [← hl]; exact Finset.filter_subset _ _
  have hcard : (clickList pattern).length = (clickSet pattern).card := by
    rw [← clickList_toFinset, toFinset_card (clickList_nodup pattern)]
  have hKN : ∀ x ∈ clickList pattern, x < N := by rw [← hl]; exact clickList_lt pattern
  have hall : ((List.range s.len).all fun i => closeMu (s.mu i)) = true ↔ ∀ i < 2 * N, closeMu (s.mu i) = true := by
    rw [List.all_eq_true, hs]; simp
  have hσ : (phase N N (sigmaArr N s.cov hbar)).PosDef := posDef_phase N _ (sigma_posDef N s.cov hbar hVp hsym hh _ subset_rfl)
  unfold thresholdProb
  rw [hn]
  dsimp only
  by_cases hz : ∀ i < 2 * N, closeMu (s.mu i) = true
  · rw [if_pos (hall.mpr hz), if_pos hz]
    have hQ : (phase N N (Qmat N s.cov hbar)).PosDef := by
      have e : phase N N (Qmat N s.cov hbar) = (phase N N (sigmaArr N s.cov hbar))ᵀ := by
        have := hσ.1
        rw [← this.eq]
        ext p q
        simp [phase, conjTranspose_apply]
      rw [e]; exact hσ.transpose
    obtain ⟨P, hP, hPp⟩ := npInv_phase N (Qmat N s.cov hbar) hQ.det_pos.ne'
    rw [hP]
    simp only [bind, Except.bind, pure, Except.pure]
    set O : ℕ → ℕ → ℂ := fun a b => eye a b - P a b with hO
    set K := clickList pattern with hKdef
    have hrows : reductionRows (pattern ++ pattern) = K ++ K.map (N + ·) := by rw [reductionRows_pattern pattern h01, hl]
    let st : GState ℂ := { len := 2 * N, mu := fun _ => 0, cov := O }
    let rd : GState ℂ := { len := 2 * K.length, mu := fun _ => 0, cov := (reduction2 O (pattern ++ pattern)).2 }
    have g1 : ∀ a < K.length, (K ++ K.map (N + ·)).getD a 0 = K.getD a 0 := fun a ha => List.getD_append _ _ _ _ ha
    have g2 : ∀ a < K.length, (K ++ K.map (N + ·)).getD (K.length + a) 0 = N + K.getD a 0 := by
      intro a ha
      rw [List.getD_append_right _ _ _ _ (by omega), Nat.add_sub_cancel_left, List.getD_eq_getElem _ _ (by simpa using ha), List.getD_eq_getElem _ _ ha,
        List.getElem_map]
    have hR : IsReduction N st K rd := by
      constructor
      · rfl
      · intro a _; exact ⟨rfl, rfl⟩
      all_goals
        intro a ha b hb
        simp only [rd, st, reduction2, hrows]
        simp only [g1 a ha, g1 b hb, g2 a ha, g2 b hb]
    have hlen : (reduction2 O (pattern ++ pattern)).1 = 2 * K.length := by
      simp only [reduction2, hrows, List.length_append, List.length_map]; omega
    have hPd : (phase N N P).PosDef := by rw [hPp]; exact hQ.inv
    have hpd : (1 - phase K.length K.length (reduction2 O (pattern ++ pattern)).2).PosDef :=
      reduction_posDef N st rd K (clickList_nodup pattern) hKN hR (by rw [one_sub_phase]; exact hPd)
    rw [hlen, tor_correct hchol K.length _ hpd true]
    simp only
    congr 1
    rw [torontonian_eq_loop, ltor_reduction N st rd K (clickList_nodup pattern) hR, clickList_toFinset, ← phase_det]
    have hq' := det_re_pos _ hQ
    rw [hq'.2, csqrt_ofReal _ hq'.1.le, clickProb, ← click_sum N _ _ hCsub, Finset.sum_div, Complex.ofReal_sum]
    refine Finset.sum_congr rfl fun S hS => ?_
    have hSN : S ⊆ Finset.range N := (Finset.mem_powerset.mp hS).trans hCsub
    obtain ⟨hT, hdet, hb, hbne, hq⟩ := zero_term N _ P hQ hPp S hSN
    have hmv : modeVec N st.mu S = 0 := rfl
    rw [expo_zero, vacProb_Qsub N s.cov hsym hbar hh _ Finset.sdiff_subset, hcard, ltorTerm, hmv, zero_dotProduct, mul_zero, Complex.exp_zero,
      one_sub_block N P S hSN]
    have hd : (Qsub N s.cov hbar (Finset.range N \ S)).det.re = (modeBlock N (Qmat N s.cov hbar) (Finset.range N \ S)).det.re := rfl
    rw [hd, hdet, Real.sqrt_mul hq.le]
    push_cast
    have h1 : ((Real.sqrt (phase N N (Qmat N s.cov hbar)).det.re : ℝ) : ℂ) ≠ 0 := by exact_mod_cast (Real.sqrt_pos.mpr hq).ne'
    have h2 : ((Real.sqrt (modeBlock N P S).det.re : ℝ) : ℂ) ≠ 0 := by exact_mod_cast (Real.sqrt_pos.mpr hb).ne'
    field_simp
  · rw [if_neg (fun h => hz (hall.mp h)), if_neg hz]
    have hN0 : N ≠ 0 := by
      rintro rfl
      exact hz (fun i hi => absurd hi (by omega))
    obtain ⟨P, hP, hPp⟩ := npInv_phase N (sigmaArr N s.cov hbar) hσ.det_pos.ne'
    have hPe : npInv (2 * N) (fun a b => (starRingEnd ℂ) (Qmat N s.cov hbar a b)) = .ok P := hP
    rw [hPe]
    simp only [bind, Except.bind, pure, Except.pure]
    set O : ℕ → ℕ → ℂ := fun a b => eye a b - P a b with hO
    set g : ℕ → ℂ := fun a => (starRingEnd ℂ) (dot (2 * N) (P a) (alphaArr N s.mu hbar)) with hg
    obtain ⟨r, hr, hR⟩ := reducedGaussianInt_ok N { len := 2 * N, mu := g, cov := O } rfl hN0 pattern hl
    have hr' : reducedGaussianInt { len := 2 * N, mu := g, cov := O } ((List.range pattern.length).filter fun i => pattern.getD i 0 = 1) = .ok r := hr
    rw [hr']
    simp only
    have hPd : (phase N N P).PosDef := by rw [hPp]; exact hσ.inv
    have hq' := det_re_pos _ hσ
    have hvp : numbaVacProb (2 * N) (alphaArr N s.mu hbar) (sigmaArr N s.cov hbar) =
        .ok (Real.exp (-(1 / 2) * expo N s.mu s.cov hbar (Finset.range N)) / Real.sqrt (phase N N (sigmaArr N s.cov hbar)).det.re) := by
      unfold numbaVacProb
      rw [hP]
      simp only [bind, Except.bind, pure, Except.pure]
      have hu : IsUnit (phase N N (sigmaArr N s.cov hbar)).det := isUnit_iff_ne_zero.mpr hσ.det_pos.ne'
      have hPσ : phase N N (sigmaArr N s.cov hbar) * phase N N P = 1 := by rw [hPp, Matrix.mul_nonsing_inv _ hu]
      have hq0 := mode_quad N _ P hPσ ∅ (by simp) (by rw [Matrix.det_isEmpty]; exact one_ne_zero)
        (fun a => (starRingEnd ℂ) (alphaArr N s.mu hbar a)) (alphaArr N s.mu hbar)
        (fun b => dot (2 * N) (fun a => (starRingEnd ℂ) (alphaArr N s.mu hbar a)) fun a => P a b)
        (fun a => dot (2 * N) (P a) (alphaArr N s.mu hbar)) (by
          ext p
          simp only [phaseVec, vecMul, dotProduct, phase, of_apply, dot_sum]
          rw [← sum_quad]) (by
          ext p
          simp only [phaseVec, mulVec, dotProduct, phase, of_apply, dot_sum]
          rw [← sum_quad])
      have hz0 : ∀ u v : ℕ → ℂ, modeVec N u ∅ ⬝ᵥ (modeBlock N P ∅)⁻¹ *ᵥ modeVec N v ∅ = 0 := by intro u v; simp [dotProduct]
      rw [hz0, zero_add, alpha_quad N s.mu s.cov hbar hVp hsym hh _ Finset.sdiff_subset, Finset.sdiff_empty] at hq0
      have hdot : dot (2 * N) (fun b => dot (2 * N) (fun a => -(1 / 2) * (starRingEnd ℂ) (alphaArr N s.mu hbar a)) fun a => P a b) (alphaArr N s.mu hbar) =
          ((-(1 / 2) * expo N s.mu s.cov hbar (Finset.range N) : ℝ) : ℂ) := by
        rw [Complex.ofReal_mul, ← hq0, Matrix.dotProduct_mulVec]
        simp only [dot_sum, vecMul, dotProduct, phaseVec, phase, of_apply]
        rw [← sum_quad, Finset.mul_sum]
        refine Finset.sum_congr rfl fun p _ => ?_
        rw [← sum_quad]
        simp only [mul_assoc]
        rw [← Finset.mul_sum]
        push_cast
        ring
      rw [hdot, ← Complex.ofReal_exp, Complex.ofReal_re, ← phase_det, hq'.2, csqrt_ofReal _ hq'.1.le, ← Complex.ofReal_div, Complex.ofReal_re, Complex.ofReal_re]
    have hvp' : numbaVacProb (2 * N) (fun a => (if a < N then (s.mu a : ℂ) + Complex.I * s.mu (N + a) else (s.mu (a - N) : ℂ) - Complex.I * s.mu (N + (a - N))) /
        (Real.sqrt (2 * hbar) : ℝ)) (fun a b => (starRingEnd ℂ) (Qmat N s.cov hbar a b)) = _ := hvp
    rw [hvp']
    simp only
    set K := clickList pattern with hKdef
    have hpd : (1 - phase K.length K.length r.cov).PosDef :=
      reduction_posDef N _ r K (clickList_nodup pattern) hKN hR (by rw [one_sub_phase]; exact hPd)
    rw [hR.len, numbaLtor_correct K.length _ _ hpd]
    simp only
    congr 1
    have hsum := ltor_reduction N _ r K (clickList_nodup pattern) hR
    have hterms : ((Real.exp (-(1 / 2) * expo N s.mu s.cov hbar (Finset.range N)) / Real.sqrt (phase N N (sigmaArr N s.cov hbar)).det.re : ℝ) : ℂ) *
        loopTorontonian K.length r.cov r.mu = (clickProb N s.mu s.cov hbar (clickSet pattern) : ℝ) := by
      rw [hsum, clickProb, ← click_sum N _ _ hCsub, Finset.mul_sum, clickList_toFinset, Complex.ofReal_sum]
      refine Finset.sum_congr rfl fun S hS => ?_
      have hSN : S ⊆ Finset.range N := (Finset.mem_powerset.mp hS).trans hCsub
      rw [mul_left_comm, displaced_term N s.mu s.cov hbar hVp hsym hh P hPp S hSN, hcard]
      push_cast; rfl
    have hre := congrArg Complex.re hterms
    rw [Complex.re_ofReal_mul, Complex.ofReal_re] at hre
    rw [hre]


/-! ### Normalisation and marginals -/

/-- splitting an inclusion–exclusion sum at one element -/
theorem incl_split (F : Finset ℕ → ℝ) (R C : Finset ℕ) (j : ℕ) (hj : j ∉ C) (hR : j ∈ R) (hC : C ⊆ R) :
    (∑ Z ∈ C.powerset, (-1 : ℝ) ^ Z.card * F ((R \ C) ∪ Z)) + (∑ Z ∈ (insert j C).powerset, (-1 : ℝ) ^ Z.card * F ((R \ insert j C) ∪ Z)) =
      ∑ Z ∈ C.powerset, (-1 : ℝ) ^ Z.card * F ((R.erase j \ C) ∪ Z) := by
  rw [Finset.sum_powerset_insert hj]
  have h1 : ∀ Z ∈ C.powerset, (-1 : ℝ) ^ (insert j Z).card * F ((R \ insert j C) ∪ insert j Z) = -((-1 : ℝ) ^ Z.card * F ((R \ C) ∪ Z)) := by
    intro Z hZ
    have hjZ : j ∉ Z := fun h => hj (Finset.mem_powerset.mp hZ h)
    have : (R \ insert j C) ∪ insert j Z = (R \ C) ∪ Z := by
      ext x
      simp only [Finset.mem_union, Finset.mem_sdiff, Finset.mem_insert]
      by_cases hx : x = j
      · subst hx; simp [hR, hj]
      · simp [hx]
    rw [Finset.card_insert_of_notMem hjZ, pow_succ, this]
    ring
  rw [Finset.sum_congr rfl h1, Finset.sum_neg_distrib]
  have h2 : ∀ Z, R \ insert j C ∪ Z = R.erase j \ C ∪ Z := by
    intro Z
    congr 1
    ext x
    simp only [Finset.mem_sdiff, Finset.mem_insert, Finset.mem_erase]
    tauto
  simp only [h2]
  ring

/-- the inclusion–exclusion probabilities of all patterns sum to the value at the empty set -/
theorem incl_total (F : Finset ℕ → ℝ) (R : Finset ℕ) :
    ∑ C ∈ R.powerset, ∑ Z ∈ C.powerset, (-1 : ℝ) ^ Z.card * F ((R \ C) ∪ Z) = F ∅ := by
  induction R using Finset.induction_on with
  | empty => simp
  | insert j R hj ih =>
    rw [Finset.sum_powerset_insert hj, ← Finset.sum_add_distrib]
    rw [← ih]
    refine Finset.sum_congr rfl fun C hC => ?_
    have hC' := Finset.mem_powerset.mp hC
    have hjC : j ∉ C := fun h => hj (hC' h)
    rw [incl_split F (insert j R) C j hjC (Finset.mem_insert_self _ _) (hC'.trans (Finset.subset_insert _ _)), Finset.erase_insert hj]

theorem vacProbD_empty (N : ℕ) (mu : ℕ → ℝ) (cov : ℕ → ℕ → ℝ) (hbar : ℝ) : vacProbD N mu cov hbar ∅ = 1 := by
  have : modeVec N mu ∅ ⬝ᵥ (modeBlock N cov ∅ + (hbar / 2) • 1)⁻¹ *ᵥ modeVec N mu ∅ = 0 := by simp [dotProduct]
  rw [vacProbD, this, mul_zero, Real.exp_zero, one_mul, vacProb, Matrix.det_isEmpty, Real.sqrt_one, div_one]

theorem clickProb_total (N : ℕ) (mu : ℕ → ℝ) (cov : ℕ → ℕ → ℝ) (hbar : ℝ) : ∑ C ∈ (Finset.range N).powerset, clickProb N mu cov hbar C = 1 := by
  unfold clickProb
  rw [incl_total (vacProbD N mu cov hbar), vacProbD_empty]

/-- all click patterns of `N` detectors -/
def patterns : ℕ → List (List ℕ)
  | 0 => [[]]
  | N + 1 => (patterns N).map (· ++ [0]) ++ (patterns N).map (· ++ [1])

theorem mem_patterns (N : ℕ) (p : List ℕ) : p ∈ patterns N ↔ p.length = N ∧ ∀ x ∈ p, x = 0 ∨ x = 1 := by
  induction N generalizing p with
  | zero =>
    simp only [patterns, List.mem_singleton, List.length_eq_zero_iff]
    constructor
    · rintro rfl; simp
    · exact fun h => h.1
  | succ N ih =>
    simp only [patterns, List.mem_append, List.mem_map, ih]
    constructor
    · rintro (⟨q, ⟨h1, h2⟩, rfl⟩ | ⟨q, ⟨h1, h2⟩, rfl⟩)
      · refine ⟨by simp [h1], ?_⟩
        intro x hx
        rcases List.mem_append.mp hx with h | h
        · exact h2 x h
        · left; simpa using h
      · refine ⟨by simp [h1], ?_⟩
        intro x hx
        rcases List.mem_append.mp hx with h | h
        · exact h2 x h
        · right; simpa using h
    · rintro ⟨h1, h2⟩
      have hne : p ≠ [] := by rintro rfl; simp at h1
      have hp := List.dropLast_append_getLast hne
      have hd : p.dropLast.length = N ∧ ∀ x ∈ p.dropLast, x = 0 ∨ x = 1 :=
        ⟨by rw [List.length_dropLast, h1]; rfl, fun x hx => h2 x (List.dropLast_subset p hx)⟩
      rcases h2 _ (List.getLast_mem hne) with h | h
      · left; exact ⟨_, hd, by rw [← h]; exact hp⟩
      · right; exact ⟨_, hd, by rw [← h]; exact hp⟩

theorem clickSet_concat (p : List ℕ) : clickSet (p ++ [0]) = clickSet p ∧ clickSet (p ++ [1]) = insert p.length (clickSet p) := by
  constructor
  · ext x
    simp only [clickSet, Finset.mem_filter, Finset.mem_range, List.length_append, List.length_singleton]
    rcases Nat.lt_trichotomy x p.length with h | h | h
    · rw [List.getD_append _ _ _ _ h]; simp [h, Nat.lt_succ_of_lt h]
    · subst h; simp
    · simp; omega
  · ext x
    simp only [clickSet, Finset.mem_filter, Finset.mem_range, List.length_append, List.length_singleton, Finset.mem_insert]
    rcases Nat.lt_trichotomy x p.length with h | h | h
    · rw [List.getD_append _ _ _ _ h]; simp [h, Nat.lt_succ_of_lt h, h.ne]
    · subst h; simp
    · simp; omega

theorem sum_patterns_clicks (N : ℕ) (F : Finset ℕ → ℝ) : ((patterns N).map fun p => F (clickSet p)).sum = ∑ C ∈ (Finset.range N).powerset, F C := by
  induction N generalizing F with
  | zero => simp [patterns, clickSet]
  | succ N ih =>
    rw [Finset.range_add_one, Finset.sum_powerset_insert (by simp), patterns, List.map_append, List.sum_append, List.map_map, List.map_map, ← ih, ← ih]
    congr 2
    · apply List.map_congr_left
      intro p _
      rw [Function.comp, (clickSet_concat p).1]
    · apply List.map_congr_left
      intro p hp
      rw [Function.comp, (clickSet_concat p).2, ((mem_patterns N p).mp hp).1]

/-- C20: the values returned for all click patterns sum to 1. -/
theorem thresholdProb_total (hchol : CholeskyContract chol) (closeMu : ℝ → Bool) (N : ℕ) (s : GState ℝ) (hs : s.len = 2 * N) (hbar : ℝ) (hh : 0 < hbar)
    (hV : Physical (phase N N s.cov) hbar) :
    ∃ prob : List ℕ → ℝ, (∀ p ∈ patterns N, thresholdProb chol closeMu s p hbar = .ok (prob p : ℂ)) ∧ ((patterns N).map prob).sum = 1 := by
  refine ⟨fun p => clickProb N (if ∀ i < 2 * N, closeMu (s.mu i) = true then fun _ => 0 else s.mu) s.cov hbar (clickSet p), ?_, ?_⟩
  · intro p hp
    have := (mem_patterns N p).mp hp
    exact thresholdProb_correct hchol closeMu N s hs hbar hh hV p this.1 this.2
  · rw [sum_patterns_clicks N (clickProb N _ s.cov hbar), clickProb_total]

/-- vacuum probabilities of a reduced state -/
theorem vacProbD_reduction (N : ℕ) (s r : GState ℝ) (K : List ℕ) (hK : K.Nodup) (hR : IsReduction N s K r) (hbar : ℝ) (S : Finset ℕ)
    (hS : S ⊆ Finset.range K.length) : vacProbD K.length r.mu r.cov hbar S = vacProbD N s.mu s.cov hbar (S.image fun x => K.getD x 0) := by
  have hinj : ∀ x < K.length, ∀ y < K.length, K.getD x 0 = K.getD y 0 → x = y := by
    intro x hx y hy h
    rw [List.getD_eq_getElem _ _ hx, List.getD_eq_getElem _ _ hy] at h
    exact (List.Nodup.getElem_inj_iff hK).mp h
  have hlt : ∀ x ∈ S, x < K.length := fun x hx => Finset.mem_range.mp (hS hx)
  set T := S.image fun x => K.getD x 0 with hTdef
  let f : S → T := fun x => ⟨K.getD x 0, Finset.mem_image_of_mem _ x.2⟩
  have hf : Function.Bijective f := by
    constructor
    · intro x y h
      exact Subtype.ext (hinj x (hlt x x.2) y (hlt y y.2) (by simpa [f] using h))
    · rintro ⟨y, hy⟩
      obtain ⟨x, hx, e⟩ := Finset.mem_image.mp hy
      exact ⟨⟨x, hx⟩, Subtype.ext e⟩
  let e : S ≃ T := Equiv.ofBijective f hf
  have he : ∀ x : S, ((e x : T) : ℕ) = K.getD x 0 := fun x => rfl
  have hblock : modeBlock K.length r.cov S = (modeBlock N s.cov T).submatrix (Equiv.sumCongr e e) (Equiv.sumCongr e e) := by
    ext p q
    rcases p with p | p <;> rcases q with q | q
    · have := hR.xx p (hlt p p.2) q (hlt q q.2); simpa [modeBlock, modeQuad, he] using this
    · have := hR.xp p (hlt p p.2) q (hlt q q.2); simpa [modeBlock, modeQuad, he] using this
    · have := hR.px p (hlt p p.2) q (hlt q q.2); simpa [modeBlock, modeQuad, he] using this
    · have := hR.pp p (hlt p p.2) q (hlt q q.2); simpa [modeBlock, modeQuad, he] using this
  have hvec : modeVec K.length r.mu S = modeVec N s.mu T ∘ Equiv.sumCongr e e := by
    ext p
    rcases p with p | p
    · have := (hR.mean p (hlt p p.2)).1; simpa [modeVec, modeQuad, he] using this
    · have := (hR.mean p (hlt p p.2)).2; simpa [modeVec, modeQuad, he] using this
  have hb2 : modeBlock K.length r.cov S + (hbar / 2) • 1 = (modeBlock N s.cov T + (hbar / 2) • 1).submatrix (Equiv.sumCongr e e) (Equiv.sumCongr e e) := by
    rw [hblock]
    ext p q
    simp only [Matrix.add_apply, Matrix.smul_apply, submatrix_apply, Matrix.one_apply, (Equiv.sumCongr e e).injective.eq_iff]
  unfold vacProbD
  rw [hb2, hvec, inv_submatrix_equiv, submatrix_mulVec_equiv, Function.comp_assoc, Equiv.self_comp_symm, Function.comp_id, comp_equiv_dotProduct_comp_equiv]
  congr 1
  unfold vacProb
  congr 2
  rw [← det_submatrix_equiv_self (Equiv.sumCongr e e)]
  congr 1
  ext p q
  have hpq := congrFun (congrFun hblock p) q
  simp only [modeBlock, of_apply, submatrix_apply] at hpq
  simp only [of_apply, submatrix_apply, hpq, (Equiv.sumCongr e e).injective.eq_iff]

/-- click probabilities of a reduced state are those of the whole state, ignoring the other detectors -/
theorem clickProb_reduction (N : ℕ) (s r : GState ℝ) (K : List ℕ) (hK : K.Nodup) (hR : IsReduction N s K r) (hbar : ℝ) (D : Finset ℕ)
    (hD : D ⊆ Finset.range K.length) : clickProb K.length r.mu r.cov hbar D =
      ∑ Z ∈ (D.image fun x => K.getD x 0).powerset, (-1) ^ Z.card * vacProbD N s.mu s.cov hbar ((K.toFinset \ D.image fun x => K.getD x 0) ∪ Z) := by
  set g : ℕ → ℕ := fun x => K.getD x 0 with hg
  have hinj : Set.InjOn g (Finset.range K.length) := by
    intro x hx y hy h
    simp only [Finset.coe_range, Set.mem_Iio] at hx hy
    simp only [hg, List.getD_eq_getElem _ _ hx, List.getD_eq_getElem _ _ hy] at h
    exact (List.Nodup.getElem_inj_iff hK).mp h
  have hKs : K.toFinset = (Finset.range K.length).image g := by
    ext x
    simp only [List.mem_toFinset, Finset.mem_image, Finset.mem_range, hg]
    constructor
    · intro hx
      obtain ⟨y, hy, e⟩ := List.getElem_of_mem hx
      exact ⟨y, hy, by rw [List.getD_eq_getElem _ _ hy, e]⟩
    · rintro ⟨y, hy, rfl⟩
      rw [List.getD_eq_getElem _ _ hy]; exact List.getElem_mem _
  unfold clickProb
  have hDinj : Set.InjOn (Finset.image g) (D.powerset : Set (Finset ℕ)) := by
    intro Z hZ Z' hZ' h
    have hZ := Finset.mem_powerset.mp hZ
    have hZ' := Finset.mem_powerset.mp hZ'
    exact Finset.image_injOn_powerset_of_injOn hinj (Finset.mem_coe.mpr (Finset.mem_powerset.mpr (hZ.trans hD))) (Finset.mem_coe.mpr (Finset.mem_powerset.mpr (hZ'.trans hD))) h
  rw [Finset.powerset_image, Finset.sum_image hDinj]
  refine Finset.sum_congr rfl fun Z hZ => ?_
  have hZ := Finset.mem_powerset.mp hZ
  rw [vacProbD_reduction N s r K hK hR hbar _ (Finset.union_subset Finset.sdiff_subset (hZ.trans hD)), Finset.image_union,
    Finset.image_sdiff_of_injOn hinj hD, ← hKs, Finset.card_image_of_injOn (hinj.mono (Finset.coe_subset.mpr (hZ.trans hD)))]

theorem clickSet_set (p : List ℕ) (j : ℕ) (hj : j < p.length) :
    clickSet (p.set j 0) = (clickSet p).erase j ∧ clickSet (p.set j 1) = insert j ((clickSet p).erase j) := by
  constructor <;>
  · ext x
    simp only [clickSet, Finset.mem_filter, Finset.mem_range, List.length_set, Finset.mem_erase, Finset.mem_insert]
    by_cases hx : x < p.length
    · rw [List.getD_eq_getElem _ _ (by simpa using hx), List.getD_eq_getElem _ _ hx, List.getElem_set]
      by_cases h : j = x
      · subst h; simp [hj]
      · simp [h, Ne.symm h, hx]
    · have : x ≠ j := by omega
      simp [hx, this]

theorem clickSet_eraseIdx (p : List ℕ) (N : ℕ) (hl : p.length = N) (j : ℕ) (hj : j < N) :
    (clickSet (p.eraseIdx j)).image (fun x => ((List.range N).eraseIdx j).getD x 0) = (clickSet p).erase j := by
  have hlen : (p.eraseIdx j).length = N - 1 := by rw [List.length_eraseIdx, if_pos (by omega), hl]
  have hlen2 : ((List.range N).eraseIdx j).length = N - 1 := by rw [List.length_eraseIdx, if_pos (by simpa using hj), List.length_range]
  have hg : ∀ x < N - 1, ((List.range N).eraseIdx j).getD x 0 = if x < j then x else x + 1 := by
    intro x hx
    rw [List.getD_eq_getElem _ _ (by omega), List.getElem_eraseIdx]
    split_ifs <;> simp
  have hp : ∀ x < N - 1, (p.eraseIdx j).getD x 0 = p.getD (if x < j then x else x + 1) 0 := by
    intro x hx
    rw [List.getD_eq_getElem _ _ (by omega), List.getElem_eraseIdx]
    split_ifs
    · rw [List.getD_eq_getElem _ _ (by omega)]
    · rw [List.getD_eq_getElem _ _ (by omega)]
  ext y
  simp only [Finset.mem_image, clickSet, Finset.mem_filter, Finset.mem_range, hlen, hl, Finset.mem_erase]
  constructor
  · rintro ⟨x, ⟨hx, h⟩, rfl⟩
    rw [hp x hx] at h
    rw [hg x hx]
    refine ⟨by split_ifs <;> omega, by split_ifs <;> omega, h⟩
  · rintro ⟨hy, hyN, h⟩
    refine ⟨if y < j then y else y - 1, ⟨by split_ifs <;> omega, ?_⟩, ?_⟩
    · rw [hp _ (by split_ifs <;> omega)]
      by_cases hyj : y < j
      · simp only [hyj, if_true, h]
      · have : ¬ (y - 1 < j) := by omega
        have e : y - 1 + 1 = y := by omega
        simp only [hyj, this, e, h, if_false]
    · rw [hg _ (by split_ifs <;> omega)]
      by_cases hyj : y < j
      · simp [hyj]
      · have : ¬ (y - 1 < j) := by omega
        simp [hyj, this]
        omega

/-- C20: summing over the two outcomes of one detector gives the probability of the remaining pattern in the reduced state. -/
theorem thresholdProb_marginal (hchol : CholeskyContract chol) (closeMu : ℝ → Bool) (hc : ∀ x, closeMu x = true ↔ x = 0) (N : ℕ) (s : GState ℝ) (hs : s.len = 2 * N)
    (hbar : ℝ) (hh : 0 < hbar) (hV : Physical (phase N N s.cov) hbar) (hN : 2 ≤ N) (j : ℕ) (hj : j < N) (pattern : List ℕ) (hl : pattern.length = N)
    (h01 : ∀ x ∈ pattern, x = 0 ∨ x = 1) :
    ∃ (r : GState ℝ) (p0 p1 : ℂ), reducedState s ((List.range N).eraseIdx j) = .ok r ∧ thresholdProb chol closeMu s (pattern.set j 0) hbar = .ok p0 ∧
      thresholdProb chol closeMu s (pattern.set j 1) hbar = .ok p1 ∧ thresholdProb chol closeMu r (pattern.eraseIdx j) hbar = .ok (p0 + p1) := by
  have hlen2 : ((List.range N).eraseIdx j).length = N - 1 := by rw [List.length_eraseIdx, if_pos (by simpa using hj), List.length_range]
  have hlen : (pattern.eraseIdx j).length = N - 1 := by rw [List.length_eraseIdx, if_pos (by omega), hl]
  set K := (List.range N).eraseIdx j with hKdef
  have hKne : K ≠ [] := by intro h; rw [h] at hlen2; simp at hlen2; omega
  have hKN : ∀ m ∈ K, m < N := fun m hm => by simpa using (List.eraseIdx_sublist _ _).subset hm
  have hKnd : K.Nodup := List.Nodup.sublist (List.eraseIdx_sublist _ _) List.nodup_range
  obtain ⟨r, hr, hR⟩ := reducedState_eq N s hs K hKne hKN
  have hex : ∀ (mu : ℕ → ℝ) (n : ℕ), (if ∀ i < 2 * n, closeMu (mu i) = true then fun _ => 0 else mu) = mu ∨
      ((∀ i < 2 * n, mu i = 0) ∧ (if ∀ i < 2 * n, closeMu (mu i) = true then fun _ => 0 else mu) = fun _ => (0 : ℝ)) := by
    intro mu n
    by_cases h : ∀ i < 2 * n, closeMu (mu i) = true
    · right; exact ⟨fun i hi => (hc _).mp (h i hi), if_pos h⟩
    · left; exact if_neg h
  have hcl : ∀ (n : ℕ) (mu : ℕ → ℝ) (cov : ℕ → ℕ → ℝ) (C : Finset ℕ), C ⊆ Finset.range n →
      clickProb n (if ∀ i < 2 * n, closeMu (mu i) = true then fun _ => 0 else mu) cov hbar C = clickProb n mu cov hbar C := by
    intro n mu cov C hC
    rcases hex mu n with h | ⟨h0, h⟩
    · rw [h]
    · rw [h]
      unfold clickProb vacProbD
      refine Finset.sum_congr rfl fun Z hZ => ?_
      have hsub : (Finset.range n \ C) ∪ Z ⊆ Finset.range n := Finset.union_subset Finset.sdiff_subset ((Finset.mem_powerset.mp hZ).trans hC)
      have : modeVec n mu ((Finset.range n \ C) ∪ Z) = modeVec n (fun _ => 0) ((Finset.range n \ C) ∪ Z) := by
        ext p
        rcases p with ⟨p, hp⟩ | ⟨p, hp⟩
        · exact h0 p (by have := Finset.mem_range.mp (hsub hp); omega)
        · exact h0 (n + p) (by have := Finset.mem_range.mp (hsub hp); omega)
      rw [this]
  have hsub : ∀ (n : ℕ) (q : List ℕ), q.length = n → clickSet q ⊆ Finset.range n := by
    rintro n q rfl; exact Finset.filter_subset _ _
  have hset : ∀ v, (v = 0 ∨ v = 1) → ∀ x ∈ pattern.set j v, x = 0 ∨ x = 1 := by
    intro v hv x hx
    rcases List.mem_or_eq_of_mem_set hx with h | h
    · exact h01 x h
    · subst h; exact hv
  have hVr : Physical (phase (N - 1) (N - 1) r.cov) hbar := by
    have := physical_reduced s r hs K hKN hKne hbar hV hKnd hr
    rwa [hlen2] at this
  have h0 := thresholdProb_correct hchol closeMu N s hs hbar hh hV (pattern.set j 0) (by rw [List.length_set, hl]) (hset 0 (.inl rfl))
  have h1 := thresholdProb_correct hchol closeMu N s hs hbar hh hV (pattern.set j 1) (by rw [List.length_set, hl]) (hset 1 (.inr rfl))
  have h2 := thresholdProb_correct hchol closeMu (N - 1) r (by rw [hR.len, hlen2]) hbar hh hVr (pattern.eraseIdx j) hlen
    (fun x hx => h01 x ((List.eraseIdx_sublist _ _).subset hx))
  refine ⟨r, _, _, hr, h0, h1, h2.trans ?_⟩
  rw [hcl _ _ _ _ (hsub _ _ hlen), hcl _ _ _ _ (hsub _ _ (by rw [List.length_set, hl])), hcl _ _ _ _ (hsub _ _ (by rw [List.length_set, hl])), ← Complex.ofReal_add]
  congr 2
  have hred := clickProb_reduction N s r K hKnd hR hbar (clickSet (pattern.eraseIdx j)) (by rw [hlen2]; exact hsub _ _ hlen)
  rw [hlen2, hKdef, clickSet_eraseIdx pattern N hl j hj] at hred
  rw [hred, (clickSet_set pattern j (by omega)).1, (clickSet_set pattern j (by omega)).2]
  have hKs : (List.toFinset ((List.range N).eraseIdx j)) = (Finset.range N).erase j := by
    ext x
    rw [List.mem_toFinset, List.mem_eraseIdx_iff_getElem?]
    simp only [Finset.mem_erase, Finset.mem_range]
    constructor
    · rintro ⟨i, hi, h⟩
      obtain ⟨hlt, h⟩ := List.getElem?_eq_some_iff.mp h
      simp at h hlt
      omega
    · rintro ⟨h1, h2⟩
      exact ⟨x, h1, by simp [h2]⟩
  rw [hKs]
  exact (incl_split (vacProbD N s.mu s.cov hbar) (Finset.range N) ((clickSet pattern).erase j) j (by simp) (by simpa using hj)
    ((Finset.erase_subset _ _).trans (hsub _ _ hl))).symm

/-- a concrete instance: the vacuum of two modes, with the Cholesky routine of the file -/
example (p : List ℕ) (hp : p ∈ patterns 2) : ∃ x : ℝ, thresholdProb (fun d M => .ok (quadCholesky (fun _ _ => 0) (List.range d) 0 d M)) (fun x => decide (x = 0))
    (vacuumState 2 2) p 2 = .ok (x : ℂ) :=
  let h := (mem_patterns 2 p).mp hp
  ⟨_, thresholdProb_correct cholesky_contract _ 2 (vacuumState 2 2) rfl 2 (by norm_num) (physical_vacuum 2 2 (by norm_num)).1 p h.1 h.2⟩

end Verif.Props
