/-
C103: `passive_transformation` is an interferometer coupling the modes to an environment in the vacuum, followed by the partial trace.
-/
import Verif.Props.LossFock

set_option linter.unusedSectionVars false
set_option linter.unusedSimpArgs false

open scoped ComplexOrder

namespace Verif.Props
open Verif.Model Verif.Model.Symp Verif.Model.Conv Verif.Model.Dec Verif.Spec Verif.Lemmas Verif.Lemmas.Symp Verif.Lemmas.Heis Verif.Lemmas.FPar Matrix

variable {N M : ℕ} {hbar : ℝ}

/-- the vacuum -/
theorem vacuum_fock (hh : 0 < hbar) (mu : ℕ → ℝ) (cov : ℕ → ℕ → ℝ) (hmu : phaseVec M mu = 0) (hcov : phase M M cov = (hbar / 2) • 1) :
    Physical (phase M M cov) hbar ∧ IsFockMatrix M mu cov hbar fun i j => if i = 0 ∧ j = 0 then 1 else 0 := by
  have hone : diagonal (Sum.elim (fun _ : Fin M => (1 : ℝ)) fun _ : Fin M => 1) = 1 := by
    rw [← diagonal_one]; congr 1; funext p; rcases p with p | p <;> rfl
  have hcov' : phase M M cov = (hbar / 2) • ((1 : Matrix (Fin M ⊕ Fin M) (Fin M ⊕ Fin M) ℝ) * diagonal (Sum.elim (fun _ : Fin M => (1 : ℝ)) fun _ : Fin M => 1) * (1 : Matrix (Fin M ⊕ Fin M) (Fin M ⊕ Fin M) ℝ)ᵀ) := by
    rw [hone, transpose_one, Matrix.mul_one, Matrix.mul_one, hcov]
  have hsp : SympSpectrum (phase M M cov) fun _ => hbar / 2 * 1 := by
    rw [hcov']
    exact sympSpectrum_smul _ _ _ (by positivity) ⟨fun _ => one_pos, 1, one_mem _, rfl⟩
  have hph : Physical (phase M M cov) hbar := (physical_iff_spectrum _ hbar hh.le _ hsp).mpr fun _ => by linarith
  refine ⟨hph, ?_⟩
  obtain ⟨ρ, _, _, -, hρ, -⟩ := fock_gram (N := M) mu hh hph
  have hm0 : ∀ k : Fin M, mu k = Real.sqrt (2 * hbar) * ((0 : Fin M → ℂ) k).re ∧ mu (M + k) = Real.sqrt (2 * hbar) * ((0 : Fin M → ℂ) k).im := fun k => by
    have h1 : mu k = 0 := congr_fun hmu (Sum.inl k)
    have h2 : mu (M + k) = 0 := congr_fun hmu (Sum.inr k)
    rw [h1, h2]; simp
  have hth := gaussian_thermal (one_mem _) (identity_gaussian M) hbar hh (fun _ => 1) (fun _ => le_rfl) mu cov hcov' hm0 ρ hρ
  · have e : ρ = fun i j => if i = 0 ∧ j = 0 then 1 else 0 := by
      funext i j
      refine (hth i j).unique ?_
      have h1 := hasSum_single (f := fun m : Fin M → ℕ => ((∏ k, thermalProb ((1 - 1) / 2) (m k) : ℝ) : ℂ) * ((if i = m then (1 : ℂ) else 0) * (starRingEnd ℂ) (if j = m then (1 : ℂ) else 0))) 0 fun m hm => by
        obtain ⟨k, hk⟩ := Function.ne_iff.mp hm
        have : ∏ k, thermalProb ((1 - 1) / 2) (m k) = 0 := Finset.prod_eq_zero (Finset.mem_univ k) (by rw [sub_self, zero_div, thermalProb_vacuum]; exact if_neg hk)
        rw [this, Complex.ofReal_zero, zero_mul]
      convert h1 using 1
      have : ∏ k : Fin M, thermalProb ((1 - 1) / 2) ((0 : Fin M → ℕ) k) = 1 := Finset.prod_eq_one fun k _ => by rw [sub_self, zero_div, thermalProb_vacuum]; simp
      rw [this]
      by_cases hi : i = 0 <;> by_cases hj : j = 0 <;> simp [hi, hj]
    rw [← e]; exact hρ

theorem sum_split (F : Fin (N + M) ⊕ Fin (N + M) → ℝ) :
    ∑ a, F a = ∑ a : Fin N ⊕ Fin N, F (Sum.map (Fin.castAdd M) (Fin.castAdd M) a) + ∑ a : Fin M ⊕ Fin M, F (Sum.map (Fin.natAdd N) (Fin.natAdd N) a) := by
  simp only [Fintype.sum_sum_type, Fin.sum_univ_add, Sum.map_inl, Sum.map_inr]
  ring

theorem interferometer_mul_transpose {n : ℕ} {U : ℕ → ℕ → ℂ} (hU : toMatrix n n U ∈ unitaryGroup (Fin n) ℂ) : phase n n (Symp.interferometer n n U) * (phase n n (Symp.interferometer n n U))ᵀ = 1 := by
  rw [unitary_iff] at hU
  rw [phase_interferometer, fromBlocks_transpose, fromBlocks_multiply, ← fromBlocks_one]
  simp only [transpose_neg, Matrix.mul_neg, Matrix.neg_mul, neg_neg]
  rw [hU.1, hU.2, add_neg_cancel, add_comm ((toMatrix n n fun i j => (U i j).im) * _), hU.1]

/-- the dilation exists exactly if `T Tᴴ ≤ 1` -/
theorem dilation_exists (N M : ℕ) (T : ℕ → ℕ → ℂ) : (1 - toMatrix M N T * (toMatrix M N T)ᴴ).PosSemidef ↔
    ∃ U : ℕ → ℕ → ℂ, toMatrix (N + M) (N + M) U ∈ unitaryGroup (Fin (N + M)) ℂ ∧ ∀ (i : Fin M) (j : Fin N), U i j = T i j := by
  obtain ⟨f, hf⟩ : ∃ f : Fin M → Fin (N + M), f = Fin.castLE (Nat.le_add_left M N) := ⟨_, rfl⟩
  have hfi : Function.Injective f := by rw [hf]; exact Fin.castLE_injective _
  have hfv : ∀ i, ((f i : Fin (N + M)) : ℕ) = i := fun i => by rw [hf]; rfl
  constructor
  · intro h
    obtain ⟨R, hR⟩ : ∃ R : Matrix (Fin M) (Fin M) ℂ, 1 - toMatrix M N T * (toMatrix M N T)ᴴ = Rᴴ * R := by
      open scoped MatrixOrder in
      obtain ⟨R, hR⟩ := CStarAlgebra.nonneg_iff_eq_star_mul_self.mp h.nonneg
      exact ⟨R, hR⟩
    obtain ⟨g, hg⟩ : ∃ g : Fin M → Fin (N + M) → ℂ, ∀ i, (∀ j, g i (Fin.castAdd M j) = T i j) ∧ ∀ j, g i (Fin.natAdd N j) = Rᴴ i j :=
      ⟨fun i => Fin.addCases (fun j => T i j) fun j => Rᴴ i j, fun i => ⟨fun j => Fin.addCases_left j, fun j => Fin.addCases_right j⟩⟩
    have hgo : ∀ i j, ∑ a, g i a * (starRingEnd ℂ) (g j a) = if i = j then 1 else 0 := by
      intro i j
      rw [Fin.sum_univ_add]
      simp only [(hg _).1, (hg _).2]
      have h1 := congr_fun (congr_fun hR i) j
      rw [Matrix.sub_apply, Matrix.mul_apply, Matrix.mul_apply, Matrix.one_apply] at h1
      refine Eq.trans ?_ (sub_eq_iff_eq_add'.mp h1).symm
      congr 1
      refine Finset.sum_congr rfl fun a _ => ?_
      rw [conjTranspose_apply, conjTranspose_apply, ← starRingEnd_apply, ← starRingEnd_apply, Complex.conj_conj]
    obtain ⟨v, hv⟩ : ∃ v : Fin (N + M) → EuclideanSpace ℂ (Fin (N + M)), ∀ i, v (f i) = WithLp.toLp 2 (g i) :=
      ⟨fun x => if hx : (x : ℕ) < M then WithLp.toLp 2 (g ⟨x, hx⟩) else 0, fun i => by simp [hfv]⟩
    have hvo : Orthonormal ℂ ((Set.range f).domRestrict v) := by
      rw [orthonormal_iff_ite]
      rintro ⟨_, i, rfl⟩ ⟨_, j, rfl⟩
      simp only [Set.domRestrict_apply, hv, PiLp.inner_apply, RCLike.inner_apply, Subtype.mk.injEq, hfi.eq_iff]
      rw [hgo]
      refine if_congr ⟨fun h => Subtype.ext (congrArg f h.symm), fun h => (hfi (Subtype.mk.inj h)).symm⟩ rfl rfl
    obtain ⟨b, hb⟩ := hvo.exists_orthonormalBasis_extension_of_card_eq (by simp)
    refine ⟨fun x y => if h : x < N + M ∧ y < N + M then b ⟨x, h.1⟩ ⟨y, h.2⟩ else 0, ?_, fun i j => ?_⟩
    · rw [mem_unitaryGroup_iff]
      ext i j
      have h1 := orthonormal_iff_ite.mp b.orthonormal j i
      rw [PiLp.inner_apply] at h1
      simp only [RCLike.inner_apply] at h1
      rw [Matrix.mul_apply, Matrix.one_apply]
      simp only [toMatrix, of_apply, star_apply, Fin.is_lt, and_self, dif_pos, Fin.eta]
      refine Eq.trans ?_ (h1.trans (if_congr eq_comm rfl rfl))
      rfl
    · have h1 : b (f i) = WithLp.toLp 2 (g i) := by rw [hb _ ⟨i, rfl⟩, hv]
      have h2 := congrArg (fun w : EuclideanSpace ℂ (Fin (N + M)) => w (Fin.castAdd M j)) h1
      have h3 : b (f i) (Fin.castAdd M j) = T i j := h2.trans ((hg i).1 j)
      have hi : (i : ℕ) < N + M := by omega
      have hj : (j : ℕ) < N + M := by omega
      refine (dif_pos (⟨hi, hj⟩ : (i : ℕ) < N + M ∧ (j : ℕ) < N + M)).trans ?_
      rw [← h3]
      have e1 : (⟨(i : ℕ), hi⟩ : Fin (N + M)) = f i := Fin.ext (hfv i).symm
      rw [e1]; rfl
  · rintro ⟨U, hU, hUT⟩
    have hR : (1 : Matrix (Fin M) (Fin M) ℂ) - toMatrix M N T * (toMatrix M N T)ᴴ = (Matrix.of fun (i : Fin M) (j : Fin M) => U i (N + j)) * (Matrix.of fun (i : Fin M) (j : Fin M) => U i (N + j))ᴴ := by
      rw [mem_unitaryGroup_iff] at hU
      ext i j
      have h1 := congr_fun (congr_fun hU (f i)) (f j)
      rw [Matrix.mul_apply, Fin.sum_univ_add] at h1
      simp only [toMatrix, of_apply, star_apply, hfv, Fin.val_castAdd, Fin.val_natAdd, hUT, Matrix.one_apply, hfi.eq_iff] at h1
      rw [Matrix.sub_apply, Matrix.one_apply, ← h1, Matrix.mul_apply, Matrix.mul_apply]
      simp only [toMatrix, of_apply, conjTranspose_apply]
      ring
    rw [hR]
    exact posSemidef_self_mul_conjTranspose _

/-- the moments of the first `M` of the `N + M` modes behind the interferometer -/
theorem passive_moments (s r : GState ℝ) (hs : s.len = 2 * N) (T U : ℕ → ℕ → ℂ) (hU : toMatrix (N + M) (N + M) U ∈ unitaryGroup (Fin (N + M)) ℂ) (hUT : ∀ (i : Fin M) (j : Fin N), U i j = T i j)
    (hr : passiveTransformation s M N T hbar = .ok r) (mu₂ mu : ℕ → ℝ) (cov₂ cov : ℕ → ℕ → ℝ) (hmu₂ : phaseVec M mu₂ = 0) (hcov₂ : phase M M cov₂ = (hbar / 2) • 1)
    (hmu : resV (phaseVec (N + M) mu) finSumFinEquiv = prodV (phaseVec N s.mu) (phaseVec M mu₂)) (hcov : resM (phase (N + M) (N + M) cov) finSumFinEquiv = prodM (phase N N s.cov) (phase M M cov₂))
    (S : Matrix (Fin (N + M) ⊕ Fin (N + M)) (Fin (N + M) ⊕ Fin (N + M)) ℝ) (hS : S = phase (N + M) (N + M) (Symp.interferometer (N + M) (N + M) U))
    (f : Fin M → Fin (N + M)) (hf : f = Fin.castLE (Nat.le_add_left M N)) : resV (S *ᵥ phaseVec (N + M) mu) f = phaseVec M r.mu ∧ resM (S * phase (N + M) (N + M) cov * Sᵀ) f = phase M M r.cov := by
  have hSo : S * Sᵀ = 1 := by rw [hS]; exact interferometer_mul_transpose hU
  have hfi : Function.Injective f := by rw [hf]; exact Fin.castLE_injective _
  obtain ⟨r', hr', -, hrmu, hrcov⟩ := passive_phase s M N T hbar hs
  rw [hr] at hr'
  obtain rfl := Except.ok.inj hr'
  have hP : ∀ p a, S (Sum.map f f p) (Sum.map (Fin.castAdd M) (Fin.castAdd M) a) = phase M N (Symp.interferometer M N T) p a := by
    intro p a
    rw [hS, phase_interferometer, phase_interferometer, hf]
    rcases p with p | p <;> rcases a with a | a <;> simp [toMatrix, hUT]
  have hcc : ∀ a b, phase (N + M) (N + M) cov (Sum.map (Fin.castAdd M) (Fin.castAdd M) a) (Sum.map (Fin.castAdd M) (Fin.castAdd M) b) = phase N N s.cov a b := by
    intro a b
    have := congr_fun (congr_fun hcov (Sum.map Sum.inl Sum.inl a)) (Sum.map Sum.inl Sum.inl b)
    rcases a with a | a <;> rcases b with b | b <;> simpa [resM, prodM, shuf] using this
  have hcn : ∀ a b, phase (N + M) (N + M) cov (Sum.map (Fin.castAdd M) (Fin.castAdd M) a) (Sum.map (Fin.natAdd N) (Fin.natAdd N) b) = 0 := by
    intro a b
    have := congr_fun (congr_fun hcov (Sum.map Sum.inl Sum.inl a)) (Sum.map Sum.inr Sum.inr b)
    rcases a with a | a <;> rcases b with b | b <;> simpa [resM, prodM, shuf] using this
  have hnc : ∀ a b, phase (N + M) (N + M) cov (Sum.map (Fin.natAdd N) (Fin.natAdd N) a) (Sum.map (Fin.castAdd M) (Fin.castAdd M) b) = 0 := by
    intro a b
    have := congr_fun (congr_fun hcov (Sum.map Sum.inr Sum.inr a)) (Sum.map Sum.inl Sum.inl b)
    rcases a with a | a <;> rcases b with b | b <;> simpa [resM, prodM, shuf] using this
  have hnn : ∀ a b, phase (N + M) (N + M) cov (Sum.map (Fin.natAdd N) (Fin.natAdd N) a) (Sum.map (Fin.natAdd N) (Fin.natAdd N) b) = if a = b then hbar / 2 else 0 := by
    intro a b
    have := congr_fun (congr_fun hcov (Sum.map Sum.inr Sum.inr a)) (Sum.map Sum.inr Sum.inr b)
    rw [hcov₂] at this
    rcases a with a | a <;> rcases b with b | b <;> simpa [resM, prodM, shuf, Matrix.one_apply] using this
  have hmc : ∀ a, phaseVec (N + M) mu (Sum.map (Fin.castAdd M) (Fin.castAdd M) a) = phaseVec N s.mu a := by
    intro a
    have := congr_fun hmu (Sum.map Sum.inl Sum.inl a)
    rcases a with a | a <;> simpa [resV, prodV, shuf] using this
  have hmn : ∀ a, phaseVec (N + M) mu (Sum.map (Fin.natAdd N) (Fin.natAdd N) a) = 0 := by
    intro a
    have := congr_fun hmu (Sum.map Sum.inr Sum.inr a)
    rw [hmu₂] at this
    rcases a with a | a <;> simpa [resV, prodV, shuf] using this
  have em : resV (S *ᵥ phaseVec (N + M) mu) f = phaseVec M r.mu := by
    rw [hrmu]
    funext p
    simp only [resV, mulVec, dotProduct]
    rw [sum_split]
    simp only [hmc, hmn, hP, mul_zero, Finset.sum_const_zero, add_zero]
  have eo : ∀ p q, ∑ a : Fin M ⊕ Fin M, S (Sum.map f f p) (Sum.map (Fin.natAdd N) (Fin.natAdd N) a) * S (Sum.map f f q) (Sum.map (Fin.natAdd N) (Fin.natAdd N) a) =
      ((1 : Matrix (Fin M ⊕ Fin M) (Fin M ⊕ Fin M) ℝ) - phase M N (Symp.interferometer M N T) * (phase M N (Symp.interferometer M N T))ᵀ) p q := by
    intro p q
    have h1 := congr_fun (congr_fun hSo (Sum.map f f p)) (Sum.map f f q)
    rw [Matrix.mul_apply, sum_split] at h1
    simp only [transpose_apply, hP] at h1
    have h2 : (1 : Matrix (Fin (N + M) ⊕ Fin (N + M)) (Fin (N + M) ⊕ Fin (N + M)) ℝ) (Sum.map f f p) (Sum.map f f q) = (1 : Matrix (Fin M ⊕ Fin M) (Fin M ⊕ Fin M) ℝ) p q := by
      rw [Matrix.one_apply, Matrix.one_apply]
      have : (Sum.map f f p = Sum.map f f q) ↔ p = q := (Sum.map_injective.mpr ⟨hfi, hfi⟩).eq_iff
      by_cases h : p = q
      · rw [if_pos h, if_pos (this.mpr h)]
      · rw [if_neg h, if_neg (mt this.mp h)]
    rw [h2] at h1
    rw [Matrix.sub_apply, ← h1, Matrix.mul_apply]
    simp only [transpose_apply]
    ring
  have ec : resM (S * phase (N + M) (N + M) cov * Sᵀ) f = phase M M r.cov := by
    rw [hrcov]
    ext p q
    rw [Matrix.add_apply, Matrix.smul_apply, ← eo p q]
    simp only [resM, submatrix_apply, Matrix.mul_apply, transpose_apply]
    rw [sum_split]
    simp only [sum_split (N := N) (M := M), hP, hcc, hcn, hnc, hnn, mul_zero, Finset.sum_const_zero, add_zero, zero_add, mul_ite, Finset.sum_ite_eq', Finset.mem_univ, if_true]
    congr 1
    rw [smul_eq_mul, Finset.mul_sum]
    exact Finset.sum_congr rfl fun a _ => by ring
  exact ⟨em, ec⟩

/-- **C103** `passive_transformation(mu, cov, T)` (symplectic.py:295-318) with an `M × N` matrix `T`: let `U` be any unitary matrix of size `N + M` with the upper left block `T`.  The state is put together with `M` environment
modes in the vacuum, the `N + M` modes pass the interferometer `U` (with the unitary `B` on Fock space), and all modes but the first `M` are traced out. -/
theorem passive_dilation (hh : 0 < hbar) (s : GState ℝ) (hs : s.len = 2 * N) (hph : Physical (phase N N s.cov) hbar) (T U : ℕ → ℕ → ℂ) (hU : toMatrix (N + M) (N + M) U ∈ unitaryGroup (Fin (N + M)) ℂ)
    (hUT : ∀ (i : Fin M) (j : Fin N), U i j = T i j) (B : (Fin (N + M) → ℕ) → (Fin (N + M) → ℕ) → ℂ) (hB : IsGaussianUnitary (phase (N + M) (N + M) (Symp.interferometer (N + M) (N + M) U)) 0 B)
    (ρ : (Fin N → ℕ) → (Fin N → ℕ) → ℂ) (hρ : IsFockMatrix N s.mu s.cov hbar ρ) :
    ∃ r, passiveTransformation s M N T hbar = .ok r ∧ ∃ σ : (Fin (N + M) → ℕ) → (Fin (N + M) → ℕ) → ℂ,
      (∀ i j, HasSum (fun x : (Fin (N + M) → ℕ) × (Fin (N + M) → ℕ) => B i x.1 *
          (ρ (fun k => x.1 (Fin.castAdd M k)) (fun k => x.2 (Fin.castAdd M k)) * if (fun k => x.1 (Fin.natAdd N k)) = 0 ∧ (fun k => x.2 (Fin.natAdd N k)) = 0 then 1 else 0) * (starRingEnd ℂ) (B j x.2)) (σ i j)) ∧
      ∀ ρ', IsFockMatrix M r.mu r.cov hbar ρ' ↔ IsPartialTrace (Fin.castLE (Nat.le_add_left M N)) σ ρ' := by
  obtain ⟨r, hr, -, -, -⟩ := passive_phase s M N T hbar hs
  refine ⟨r, hr, ?_⟩
  obtain ⟨cov₂, hcov₂⟩ := exists_cov (N := M) ((hbar / 2) • 1)
  obtain ⟨mu₂, hmu₂⟩ := exists_phaseVec (N := M) 0
  obtain ⟨hph₂, hρ₂⟩ := vacuum_fock hh mu₂ cov₂ hmu₂ hcov₂
  obtain ⟨mu, cov, hmu, hcov⟩ := product_arrays N M (phaseVec N s.mu) (phaseVec M mu₂) (phase N N s.cov) (phase M M cov₂)
  have hphJ := product_physical hph hph₂ _ hcov
  have hρJ := product_fock hh hph hph₂ hmu hcov hρ hρ₂
  obtain ⟨S, hS⟩ : ∃ S, S = phase (N + M) (N + M) (Symp.interferometer (N + M) (N + M) U) := ⟨_, rfl⟩
  have hSs : S ∈ symplecticGroup (Fin (N + M)) ℝ := by
    rw [hS]; exact (interferometer_symplectic_iff _ _).mpr hU
  have hSo : S * Sᵀ = 1 := by rw [hS]; exact interferometer_mul_transpose hU
  rw [← hS] at hB
  obtain ⟨cov', hcov'⟩ := exists_cov (S * phase (N + M) (N + M) cov * Sᵀ)
  obtain ⟨mu', hmu'⟩ := exists_phaseVec (S *ᵥ phaseVec (N + M) mu)
  have hph' : Physical (phase (N + M) (N + M) cov') hbar := by
    rw [hcov']; exact physical_symplectic _ _ hbar hphJ hSs
  obtain ⟨σ, _, _, -, hσ, -⟩ := fock_gram (N := N + M) mu' hh hph'
  have hz : cohQuad hbar (0 : Fin (N + M) → ℂ) = 0 := by
    funext p; rcases p with p | p <;> simp [cohQuad]
  have hev := gaussianUnitary_state hSs hB hbar hh mu mu' cov cov' hphJ hcov' (by rw [hmu', hz, add_zero]) _ σ hρJ hσ
  refine ⟨σ, hev, fun ρ' => ?_⟩
  obtain ⟨f, hf⟩ : ∃ f : Fin M → Fin (N + M), f = Fin.castLE (Nat.le_add_left M N) := ⟨_, rfl⟩
  have hfi : Function.Injective f := by rw [hf]; exact Fin.castLE_injective _
  rw [← hf]
  obtain ⟨τ, hτ, hτF⟩ := fock_partialTrace f hfi hh hph' hσ
  obtain ⟨em, ec⟩ := passive_moments s r hs T U hU hUT hr mu₂ mu cov₂ cov hmu₂ hcov₂ hmu hcov S hS f hf
  have hτ' : IsFockMatrix M r.mu r.cov hbar τ := by
    rw [isFock_iff, ← em, ← ec, ← hmu', ← hcov']
    have e : resM (phase (N + M) (N + M) cov' + (hbar / 2) • 1) f = resM (phase (N + M) (N + M) cov') f + (hbar / 2) • 1 := by
      ext p q
      rcases p with p | p <;> rcases q with q | q <;> simp [resM, Matrix.one_apply, hfi.eq_iff]
    rw [← e]
    exact hτF
  constructor
  · intro h
    rw [fockMatrix_unique h hτ']
    exact hτ
  · intro h
    have : ρ' = τ := funext fun i => funext fun j => (h i j).unique (hτ i j)
    rw [this]; exact hτ'

/-- **C103** for every linear optical channel (`T Tᴴ ≤ 1`) there are such an interferometer and its unitary on Fock space, and the result is a physical state -/
theorem passive_channel (hh : 0 < hbar) (s : GState ℝ) (hs : s.len = 2 * N) (hph : Physical (phase N N s.cov) hbar) (T : ℕ → ℕ → ℂ) (hT : (1 - toMatrix M N T * (toMatrix M N T)ᴴ).PosSemidef)
    (ρ : (Fin N → ℕ) → (Fin N → ℕ) → ℂ) (hρ : IsFockMatrix N s.mu s.cov hbar ρ) :
    ∃ (r : GState ℝ) (U : ℕ → ℕ → ℂ) (B σ : (Fin (N + M) → ℕ) → (Fin (N + M) → ℕ) → ℂ) (ρ' : (Fin M → ℕ) → (Fin M → ℕ) → ℂ), passiveTransformation s M N T hbar = .ok r ∧ Physical (phase M M r.cov) hbar ∧
      toMatrix (N + M) (N + M) U ∈ unitaryGroup (Fin (N + M)) ℂ ∧ (∀ (i : Fin M) (j : Fin N), U i j = T i j) ∧
      IsGaussianUnitary (phase (N + M) (N + M) (Symp.interferometer (N + M) (N + M) U)) 0 B ∧
      (∀ i j, HasSum (fun x : (Fin (N + M) → ℕ) × (Fin (N + M) → ℕ) => B i x.1 *
          (ρ (fun k => x.1 (Fin.castAdd M k)) (fun k => x.2 (Fin.castAdd M k)) * if (fun k => x.1 (Fin.natAdd N k)) = 0 ∧ (fun k => x.2 (Fin.natAdd N k)) = 0 then 1 else 0) * (starRingEnd ℂ) (B j x.2)) (σ i j)) ∧
      IsPartialTrace (Fin.castLE (Nat.le_add_left M N)) σ ρ' ∧ IsFockMatrix M r.mu r.cov hbar ρ' := by
  obtain ⟨U, hU, hUT⟩ := (dilation_exists N M T).mp hT
  obtain ⟨B, hB⟩ := gaussianUnitary_exists ((interferometer_symplectic_iff _ _).mpr hU) 0
  obtain ⟨r, hr, σ, hσ, h⟩ := passive_dilation hh s hs hph T U hU hUT B hB ρ hρ
  have hphr := physical_passive M s r hs T hbar hh.le hT hph hr
  obtain ⟨ρ', _, _, -, hρ', -⟩ := fock_gram (N := M) r.mu hh hphr
  exact ⟨r, U, B, σ, ρ', hr, hphr, hU, hUT, hB, hσ, (h ρ').mp hρ', hρ'⟩

/-- non-vacuous: both modes of a displaced two-mode squeezed vacuum are merged into one mode, with half of the light lost -/
example (mu : ℕ → ℝ) : ∃ ρ, IsFockMatrix 2 mu tmsExample 2 ρ ∧ ∃ (r : GState ℝ) (ρ' : (Fin 1 → ℕ) → (Fin 1 → ℕ) → ℂ), passiveTransformation ⟨4, mu, tmsExample⟩ 1 2 (fun _ _ => 1 / 2) 2 = .ok r ∧ IsFockMatrix 1 r.mu r.cov 2 ρ' := by
  have hph : Physical (phase 2 2 tmsExample) 2 := (physical_iff_spectrum _ 2 (by norm_num) _ tmsExample_spec).mpr fun _ => by norm_num
  obtain ⟨ρ, _, _, -, hρ, -⟩ := fock_gram (N := 2) mu (by norm_num) hph
  have hT : ((1 : Matrix (Fin 1) (Fin 1) ℂ) - toMatrix 1 2 (fun _ _ => (1 / 2 : ℂ)) * (toMatrix 1 2 (fun _ _ => (1 / 2 : ℂ)))ᴴ).PosSemidef := by
    have e : (1 : Matrix (Fin 1) (Fin 1) ℂ) - toMatrix 1 2 (fun _ _ => (1 / 2 : ℂ)) * (toMatrix 1 2 (fun _ _ => (1 / 2 : ℂ)))ᴴ = diagonal fun _ => (1 / 2 : ℂ) := by
      ext i j
      fin_cases i; fin_cases j
      simp [toMatrix, Matrix.mul_apply, Fin.sum_univ_two]
      norm_num
    rw [e]
    refine PosSemidef.diagonal fun _ => ?_
    have : ((1 / 2 : ℝ) : ℂ) = 1 / 2 := by push_cast; rfl
    rw [← this]
    exact Complex.zero_le_real.mpr (by norm_num)
  obtain ⟨r, U, B, σ, ρ', hr, -, -, -, -, -, -, h⟩ := passive_channel (N := 2) (M := 1) (hbar := 2) (by norm_num) ⟨4, mu, tmsExample⟩ rfl hph _ hT ρ hρ
  exact ⟨ρ, hρ, r, ρ', hr, h⟩

end Verif.Props
