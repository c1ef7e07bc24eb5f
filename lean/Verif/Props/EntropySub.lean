/-
C106: the entropy is subadditive, and additive only for uncorrelated systems.
-/
import Verif.Lemmas.Klein
import Verif.Props.FidelityMonotone

set_option linter.unusedSectionVars false

namespace Verif.Props

open Matrix Verif.Spec Verif.Model Verif.Model.Symp Verif.Model.Ent Verif.Lemmas Verif.Lemmas.Symp Verif.Lemmas.FPar Verif.Lemmas.FTr Verif.Lemmas.Heis Verif.Lemmas.Klein

open scoped ComplexOrder

noncomputable section

variable {N M L : ℕ} {hbar : ℝ}

/-- a product of thermal states is diagonal -/
theorem thermal_diag {l : ℕ} (hh : 0 < hbar) {ν : Fin l → ℝ} (hν : ∀ k, 1 ≤ ν k) {cov : RArr} (hcov : phase l l cov = (hbar / 2) • diagonal (Sum.elim ν ν)) {ρ : (Fin l → ℕ) → (Fin l → ℕ) → ℂ}
    (hρ : IsFockMatrix l 0 cov hbar ρ) (i j : Fin l → ℕ) : ρ i j = if i = j then ((∏ k, thermalProb ((ν k - 1) / 2) (i k) : ℝ) : ℂ) else 0 := by
  have h := gaussian_thermal (one_mem _) (identity_gaussian l) hbar hh ν hν 0 cov (by rw [hcov, Matrix.one_mul, transpose_one, Matrix.mul_one]) (fun k => by simp) ρ hρ i j
  refine h.unique (hs_eq (hasSum_ite_eq i (if i = j then ((∏ k, thermalProb ((ν k - 1) / 2) (i k) : ℝ) : ℂ) else 0)) (fun m => ?_) rfl)
  by_cases hm : m = i
  · subst hm
    by_cases hj : m = j
    · simp [hj]
    · simp [hj, Ne.symm hj]
  · simp [hm, Ne.symm hm]

/-- the modes that are not among the first -/
def compFirst (N M : ℕ) : Fin M ≃ {k : Fin (N + M) // k ∉ Set.range (Fin.castAdd M : Fin N → Fin (N + M))} :=
  Equiv.ofBijective (fun j => ⟨Fin.natAdd N j, fun ⟨i, hi⟩ => by have := congrArg Fin.val hi; simp at this; omega⟩) ⟨fun a b h => by simpa using h, fun ⟨k, hk⟩ => by
    induction k using Fin.addCases with
    | left i => exact absurd ⟨i, rfl⟩ hk
    | right j => exact ⟨j, rfl⟩⟩

/-- the modes that are not among the last -/
def compLast (N M : ℕ) : Fin N ≃ {k : Fin (N + M) // k ∉ Set.range (Fin.natAdd N : Fin M → Fin (N + M))} :=
  Equiv.ofBijective (fun j => ⟨Fin.castAdd M j, fun ⟨i, hi⟩ => by have := congrArg Fin.val hi; simp at this; omega⟩) ⟨fun a b h => by simpa using h, fun ⟨k, hk⟩ => by
    induction k using Fin.addCases with
    | left i => exact ⟨i, rfl⟩
    | right j => exact absurd ⟨j, rfl⟩ hk⟩

theorem occSplit_first (i : Fin N → ℕ) (j : Fin M → ℕ) :
    (occSplit (Fin.castAdd M : Fin N → Fin (N + M)) (Fin.castAdd_injective N M)).symm (i, (Equiv.arrowCongr (compFirst N M) (Equiv.refl ℕ)) j) = (occPair N M).symm (i, j) := by
  rw [Equiv.symm_apply_eq]
  refine Prod.ext (funext fun k => ?_) (funext fun k => ?_)
  · exact (Fin.append_left i j k).symm
  · obtain ⟨k, rfl⟩ := (compFirst N M).surjective k
    have h1 : (Equiv.arrowCongr (compFirst N M) (Equiv.refl ℕ)) j (compFirst N M k) = j k := by simp [Equiv.arrowCongr]
    exact h1.trans (Fin.append_right i j k).symm

theorem occSplit_last (i : Fin N → ℕ) (j : Fin M → ℕ) :
    (occSplit (Fin.natAdd N : Fin M → Fin (N + M)) (Fin.natAdd_injective M N)).symm (j, (Equiv.arrowCongr (compLast N M) (Equiv.refl ℕ)) i) = (occPair N M).symm (i, j) := by
  rw [Equiv.symm_apply_eq]
  refine Prod.ext (funext fun k => ?_) (funext fun k => ?_)
  · exact (Fin.append_right i j k).symm
  · obtain ⟨k, rfl⟩ := (compLast N M).surjective k
    have h1 : (Equiv.arrowCongr (compLast N M) (Equiv.refl ℕ)) i (compLast N M k) = i k := by simp [Equiv.arrowCongr]
    exact h1.trans (Fin.append_left i j k).symm

theorem append_ge_one {ν : Fin N → ℝ} {κ : Fin M → ℝ} (hν : ∀ k, 1 ≤ ν k) (hκ : ∀ k, 1 ≤ κ k) (k : Fin (N + M)) : 1 ≤ Fin.append ν κ k := by
  induction k using Fin.addCases with
  | left i => simpa using hν i
  | right i => simpa using hκ i

/-- the case where the parts are products of thermal states -/
theorem entropy_diag (hh : 0 < hbar) {cov : RArr} (hph : Physical (phase (N + M) (N + M) cov) hbar) {ν : Fin N → ℝ} {κ : Fin M → ℝ} {τ : Fin (N + M) → ℝ} (hν : ∀ k, 1 ≤ ν k) (hκ : ∀ k, 1 ≤ κ k)
    (hτ : ∀ k, 1 ≤ τ k) (h1 : resM (phase (N + M) (N + M) cov) (Fin.castAdd M) = (hbar / 2) • diagonal (Sum.elim ν ν)) (h2 : resM (phase (N + M) (N + M) cov) (Fin.natAdd N) = (hbar / 2) • diagonal (Sum.elim κ κ))
    (hsp : SympSpectrum ((2 / hbar) • phase (N + M) (N + M) cov) τ) :
    ∑ k, thermalEntropy ((τ k - 1) / 2) ≤ ∑ k, thermalEntropy ((ν k - 1) / 2) + ∑ k, thermalEntropy ((κ k - 1) / 2) ∧
      (∑ k, thermalEntropy ((τ k - 1) / 2) = ∑ k, thermalEntropy ((ν k - 1) / 2) + ∑ k, thermalEntropy ((κ k - 1) / 2) →
        phase (N + M) (N + M) cov = (hbar / 2) • joint (diagonal (Sum.elim ν ν)) (diagonal (Sum.elim κ κ))) := by
  obtain ⟨ρ, _, _, -, hρ, -⟩ := fock_gram (N := N + M) 0 hh hph
  obtain ⟨p, V, hspec, hent⟩ := gaussian_entropy 0 cov hbar hh τ hτ hsp ρ hρ
  obtain ⟨c1, hc1⟩ := exists_cov ((hbar / 2) • diagonal (Sum.elim ν ν))
  obtain ⟨c2, hc2⟩ := exists_cov ((hbar / 2) • diagonal (Sum.elim κ κ))
  obtain ⟨-, ρ1, hρ1, ht1⟩ := fock_restrict hh (Fin.castAdd M) (Fin.castAdd_injective N M) (m := 0) (c := c1) hph (by ext p; rcases p with p | p <;> rfl) (hc1.trans h1.symm) hρ
  obtain ⟨-, ρ2, hρ2, ht2⟩ := fock_restrict hh (Fin.natAdd N) (Fin.natAdd_injective M N) (m := 0) (c := c2) hph (by ext p; rcases p with p | p <;> rfl) (hc2.trans h2.symm) hρ
  have ha : ∀ i, HasSum (fun j => (ρ ((occPair N M).symm (i, j)) ((occPair N M).symm (i, j))).re) (∏ k, thermalProb ((ν k - 1) / 2) (i k)) := fun i => by
    have h3 := (Equiv.arrowCongr (compFirst N M) (Equiv.refl ℕ)).hasSum_iff.mpr (ht1 i i)
    rw [thermal_diag hh hν hc1 hρ1, if_pos rfl] at h3
    refine hs_eq (Complex.hasSum_re h3) (fun j => ?_) (by rw [Complex.ofReal_re])
    rw [Function.comp_apply, occSplit_first]
  have hb : ∀ j, HasSum (fun i => (ρ ((occPair N M).symm (i, j)) ((occPair N M).symm (i, j))).re) (∏ k, thermalProb ((κ k - 1) / 2) (j k)) := fun j => by
    have h3 := (Equiv.arrowCongr (compLast N M) (Equiv.refl ℕ)).hasSum_iff.mpr (ht2 j j)
    rw [thermal_diag hh hκ hc2 hρ2, if_pos rfl] at h3
    refine hs_eq (Complex.hasSum_re h3) (fun j => ?_) (by rw [Complex.ofReal_re])
    rw [Function.comp_apply, occSplit_last]
  obtain ⟨k1, k2⟩ := entropy_marginals (occPair N M) hspec _ _ ha hb hent (thermal_shannon_pi _ fun k => by linarith [hν k]) (thermal_shannon_pi _ fun k => by linarith [hκ k])
  refine ⟨k1, fun heq => ?_⟩
  obtain ⟨c, hc⟩ := exists_cov ((hbar / 2) • diagonal (Sum.elim (Fin.append ν κ) (Fin.append ν κ)))
  have hpc : Physical (phase (N + M) (N + M) c) hbar := by
    rw [hc]
    refine (physical_iff_spectrum _ hbar hh.le (fun k => hbar / 2 * Fin.append ν κ k) (sympSpectrum_smul _ _ _ (by positivity) ⟨fun k => lt_of_lt_of_le one_pos (append_ge_one hν hκ k), 1, one_mem _, ?_⟩)).mpr fun k => ?_
    · rw [Matrix.one_mul, transpose_one, Matrix.mul_one]
    · exact le_mul_of_one_le_right (by positivity) (append_ge_one hν hκ k)
  obtain ⟨ρ', _, _, -, hρ', -⟩ := fock_gram (N := N + M) 0 hh hpc
  have he : ρ' = ρ := by
    funext x y
    rw [thermal_diag hh (append_ge_one hν hκ) hc hρ', k2 heq x y]
    congr 2
    rw [Fin.prod_univ_add]
    congr 1 <;> exact Finset.prod_congr rfl fun k _ => by simp [occPair_fst, occPair_snd]
  rw [he] at hρ'
  rw [(fockMatrix_faithful 0 0 cov c hbar hh hph hpc ρ hρ hρ').2, hc, joint_diag]

/-- a local symplectic transformation acts on the parts -/
theorem joint_conj (A : Matrix (Fin N ⊕ Fin N) (Fin N ⊕ Fin N) ℝ) (B : Matrix (Fin M ⊕ Fin M) (Fin M ⊕ Fin M) ℝ) (V : Matrix (Fin (N + M) ⊕ Fin (N + M)) (Fin (N + M) ⊕ Fin (N + M)) ℝ) :
    resM (joint A B * V * (joint A B)ᵀ) (Fin.castAdd M) = A * resM V (Fin.castAdd M) * Aᵀ ∧ resM (joint A B * V * (joint A B)ᵀ) (Fin.natAdd N) = B * resM V (Fin.natAdd N) * Bᵀ := by
  have hW : ∀ V : Matrix (Fin (N + M) ⊕ Fin (N + M)) (Fin (N + M) ⊕ Fin (N + M)) ℝ, ∃ P Q, V = (fromBlocks (resM V (Fin.castAdd M)) P Q (resM V (Fin.natAdd N))).submatrix (jIdx N M) (jIdx N M) := fun V => by
    refine ⟨(V.submatrix (jIdx N M).symm (jIdx N M).symm).toBlocks₁₂, (V.submatrix (jIdx N M).symm (jIdx N M).symm).toBlocks₂₁, ?_⟩
    have e1 : resM V (Fin.castAdd M) = (V.submatrix (jIdx N M).symm (jIdx N M).symm).toBlocks₁₁ := by
      ext p q
      rcases p with p | p <;> rcases q with q | q <;> simp [resM, jIdx, shuf, toBlocks₁₁]
    have e2 : resM V (Fin.natAdd N) = (V.submatrix (jIdx N M).symm (jIdx N M).symm).toBlocks₂₂ := by
      ext p q
      rcases p with p | p <;> rcases q with q | q <;> simp [resM, jIdx, shuf, toBlocks₂₂]
    rw [e1, e2, fromBlocks_toBlocks, submatrix_submatrix]
    simp
  have hR : ∀ W : Matrix ((Fin N ⊕ Fin N) ⊕ (Fin M ⊕ Fin M)) ((Fin N ⊕ Fin N) ⊕ (Fin M ⊕ Fin M)) ℝ, resM (W.submatrix (jIdx N M) (jIdx N M)) (Fin.castAdd M) = W.toBlocks₁₁ ∧
      resM (W.submatrix (jIdx N M) (jIdx N M)) (Fin.natAdd N) = W.toBlocks₂₂ := fun W => by
    constructor
    · ext p q
      rcases p with p | p <;> rcases q with q | q <;> simp [resM, jIdx, shuf, toBlocks₁₁]
    · ext p q
      rcases p with p | p <;> rcases q with q | q <;> simp [resM, jIdx, shuf, toBlocks₂₂]
  obtain ⟨P, Q, hV⟩ := hW V
  generalize resM V (Fin.castAdd M) = A' at *
  generalize resM V (Fin.natAdd N) = B' at *
  rw [hV, joint_tr, joint_eq, joint_eq, submatrix_mul_equiv, submatrix_mul_equiv, fromBlocks_multiply, fromBlocks_multiply, (hR _).1, (hR _).2, toBlocks_fromBlocks₁₁, toBlocks_fromBlocks₂₂]
  simp

/-- two parts of consecutive modes -/
theorem entropy_consecutive (hh : 0 < hbar) {V : Matrix (Fin (N + M) ⊕ Fin (N + M)) (Fin (N + M) ⊕ Fin (N + M)) ℝ} (hph : Physical V hbar) {ν : Fin N → ℝ} {κ : Fin M → ℝ} {τ : Fin (N + M) → ℝ}
    (hν : ∀ k, 1 ≤ ν k) (hκ : ∀ k, 1 ≤ κ k) (hτ : ∀ k, 1 ≤ τ k) (h1 : SympSpectrum ((2 / hbar) • resM V (Fin.castAdd M)) ν) (h2 : SympSpectrum ((2 / hbar) • resM V (Fin.natAdd N)) κ)
    (hsp : SympSpectrum ((2 / hbar) • V) τ) :
    ∑ k, thermalEntropy ((τ k - 1) / 2) ≤ ∑ k, thermalEntropy ((ν k - 1) / 2) + ∑ k, thermalEntropy ((κ k - 1) / 2) ∧
      (∑ k, thermalEntropy ((τ k - 1) / 2) = ∑ k, thermalEntropy ((ν k - 1) / 2) + ∑ k, thermalEntropy ((κ k - 1) / 2) → V = joint (resM V (Fin.castAdd M)) (resM V (Fin.natAdd N))) := by
  obtain ⟨-, S, hS, e1⟩ := h1
  obtain ⟨-, T, hT, e2⟩ := h2
  have hinv : ∀ {l : ℕ} {S : Matrix (Fin l ⊕ Fin l) (Fin l ⊕ Fin l) ℝ}, S ∈ symplecticGroup (Fin l) ℝ → S⁻¹ ∈ symplecticGroup (Fin l) ℝ := fun {l S} hS => by
    have h1 := (⟨S, hS⟩ : symplecticGroup (Fin l) ℝ)⁻¹.2
    have h2 := SymplecticGroup.coe_inv' ⟨S, hS⟩
    rwa [h2] at h1
  have hscale : ∀ {l : ℕ} {X Y : Matrix (Fin l ⊕ Fin l) (Fin l ⊕ Fin l) ℝ}, (2 / hbar) • X = Y → X = (hbar / 2) • Y := fun {l X Y} h => by
    rw [← h, smul_smul]
    have : hbar / 2 * (2 / hbar) = 1 := by field_simp
    rw [this, one_smul]
  have hcan : ∀ {l : ℕ} {S D X : Matrix (Fin l ⊕ Fin l) (Fin l ⊕ Fin l) ℝ}, S ∈ symplecticGroup (Fin l) ℝ → X = (hbar / 2) • (S * D * Sᵀ) → S⁻¹ * X * S⁻¹ᵀ = (hbar / 2) • D := fun {l S D X} hS h => by
    have hdet : IsUnit S.det := SymplecticGroup.symplectic_det hS
    rw [h, Matrix.mul_smul, Matrix.smul_mul]
    congr 1
    rw [← Matrix.mul_assoc, ← Matrix.mul_assoc, nonsing_inv_mul S hdet, Matrix.one_mul, Matrix.mul_assoc, ← transpose_mul, nonsing_inv_mul S hdet, transpose_one, Matrix.mul_one]
  have hJ := joint_symp (hinv hS) (hinv hT)
  obtain ⟨cov, hcov⟩ := exists_cov (joint S⁻¹ T⁻¹ * V * (joint S⁻¹ T⁻¹)ᵀ)
  obtain ⟨j1, j2⟩ := joint_conj S⁻¹ T⁻¹ V
  have hsp' := sympSpectrum_congr _ _ hJ τ hsp
  rw [Matrix.mul_smul, Matrix.smul_mul, ← hcov] at hsp'
  obtain ⟨k1, k2⟩ := entropy_diag hh (hcov ▸ physical_symplectic _ _ hbar hph hJ) hν hκ hτ (by rw [hcov, j1, hcan hS (hscale e1)]) (by rw [hcov, j2, hcan hT (hscale e2)]) hsp'
  refine ⟨k1, fun heq => ?_⟩
  have h3 := k2 heq
  rw [hcov] at h3
  have hST : joint S T * joint S⁻¹ T⁻¹ = 1 := by
    have one_joint : joint (1 : Matrix (Fin N ⊕ Fin N) (Fin N ⊕ Fin N) ℝ) (1 : Matrix (Fin M ⊕ Fin M) (Fin M ⊕ Fin M) ℝ) = 1 := by
      rw [joint_eq, fromBlocks_one, submatrix_one_equiv]
    rw [joint_mul, mul_nonsing_inv S (SymplecticGroup.symplectic_det hS), mul_nonsing_inv T (SymplecticGroup.symplectic_det hT), one_joint]
  have h4 : V = joint S T * (joint S⁻¹ T⁻¹ * V * (joint S⁻¹ T⁻¹)ᵀ) * (joint S T)ᵀ := by
    rw [← Matrix.mul_assoc, ← Matrix.mul_assoc, hST, Matrix.one_mul, Matrix.mul_assoc, ← transpose_mul, hST, transpose_one, Matrix.mul_one]
  rw [hscale e1, hscale e2, joint_smul]
  conv_lhs => rw [h4, h3]
  rw [Matrix.mul_smul, Matrix.smul_mul, joint_tr, joint_mul, joint_mul]

/-- the symplectic eigenvalues do not depend on the order of the modes -/
theorem sympSpectrum_perm (σ : Fin M ≃ Fin N) {V : Matrix (Fin N ⊕ Fin N) (Fin N ⊕ Fin N) ℝ} {ν : Fin N → ℝ} (h : SympSpectrum V ν) : SympSpectrum (resM V σ) (ν ∘ σ) := by
  obtain ⟨hp, S, hS, e⟩ := h
  have hr : ∀ W : Matrix (Fin N ⊕ Fin N) (Fin N ⊕ Fin N) ℝ, resM W σ = W.submatrix (Equiv.sumCongr σ σ) (Equiv.sumCongr σ σ) := fun W => rfl
  have hd : (diagonal (Sum.elim ν ν)).submatrix (Equiv.sumCongr σ σ) (Equiv.sumCongr σ σ) = diagonal (Sum.elim (ν ∘ σ) (ν ∘ σ)) := by
    rw [submatrix_diagonal_equiv]
    congr 1
    funext p
    rcases p with p | p <;> rfl
  have hJ : (J (Fin N) ℝ).submatrix (Equiv.sumCongr σ σ) (Equiv.sumCongr σ σ) = J (Fin M) ℝ := by
    ext p q
    rcases p with p | p <;> rcases q with q | q <;> simp [Matrix.J, Matrix.one_apply]
  refine ⟨fun i => hp _, S.submatrix (Equiv.sumCongr σ σ) (Equiv.sumCongr σ σ), ?_, ?_⟩
  · rw [SymplecticGroup.mem_iff] at hS ⊢
    rw [← hJ, transpose_submatrix, submatrix_mul_equiv, submatrix_mul_equiv, hS]
  · rw [hr, e, ← hd, transpose_submatrix, submatrix_mul_equiv, submatrix_mul_equiv]

theorem thermal_sum_unique {V : Matrix (Fin N ⊕ Fin N) (Fin N ⊕ Fin N) ℝ} {ν κ : Fin N → ℝ} (h : SympSpectrum V ν) (h' : SympSpectrum V κ) (f : ℝ → ℝ) : ∑ k, f (ν k) = ∑ k, f (κ k) := by
  have h1 := ((sympSpectrum_unique V ν κ h h').map f).sum_eq
  rwa [List.map_ofFn, List.map_ofFn, List.sum_ofFn, List.sum_ofFn] at h1

/-- two complementary parts -/
theorem entropy_parts (hh : 0 < hbar) (f : Fin N → Fin L) (g : Fin M → Fin L) (hb : Function.Bijective (Sum.elim f g)) {V : Matrix (Fin L ⊕ Fin L) (Fin L ⊕ Fin L) ℝ} (hph : Physical V hbar) {ν : Fin N → ℝ}
    {κ : Fin M → ℝ} {τ : Fin L → ℝ} (hν : ∀ k, 1 ≤ ν k) (hκ : ∀ k, 1 ≤ κ k) (hτ : ∀ k, 1 ≤ τ k) (h1 : SympSpectrum ((2 / hbar) • resM V f) ν) (h2 : SympSpectrum ((2 / hbar) • resM V g) κ)
    (hsp : SympSpectrum ((2 / hbar) • V) τ) :
    ∑ k, thermalEntropy ((τ k - 1) / 2) ≤ ∑ k, thermalEntropy ((ν k - 1) / 2) + ∑ k, thermalEntropy ((κ k - 1) / 2) ∧
      (∑ k, thermalEntropy ((τ k - 1) / 2) = ∑ k, thermalEntropy ((ν k - 1) / 2) + ∑ k, thermalEntropy ((κ k - 1) / 2) ↔ ∀ p q, V (Sum.map f f p) (Sum.map g g q) = 0) := by
  let e : Fin (N + M) ≃ Fin L := finSumFinEquiv.symm.trans (Equiv.ofBijective _ hb)
  have ef : ∀ k, e (Fin.castAdd M k) = f k := fun k => by simp [e]
  have eg : ∀ k, e (Fin.natAdd N k) = g k := fun k => by simp [e]
  have r1 : resM (resM V e) (Fin.castAdd M) = resM V f := by
    ext p q
    rcases p with p | p <;> rcases q with q | q <;> simp [resM, ef]
  have r2 : resM (resM V e) (Fin.natAdd N) = resM V g := by
    ext p q
    rcases p with p | p <;> rcases q with q | q <;> simp [resM, eg]
  have hpe : Physical (resM V e) hbar := physical_submatrix _ _ hph e e.injective
  have hspe : SympSpectrum ((2 / hbar) • resM V e) (τ ∘ e) := sympSpectrum_perm e hsp
  have hsum : ∑ k, thermalEntropy (((τ ∘ e) k - 1) / 2) = ∑ k, thermalEntropy ((τ k - 1) / 2) := e.sum_comp fun k => thermalEntropy ((τ k - 1) / 2)
  obtain ⟨k1, k2⟩ := entropy_consecutive (τ := τ ∘ e) hh hpe hν hκ (fun k => hτ _) (by rwa [r1]) (by rwa [r2]) hspe
  rw [hsum, r1, r2] at k2
  rw [hsum] at k1
  refine ⟨k1, fun heq p q => ?_, fun hz => ?_⟩
  · have h3 := congrFun (congrFun (k2 heq) (Sum.map (Fin.castAdd M) (Fin.castAdd M) p)) (Sum.map (Fin.natAdd N) (Fin.natAdd N) q)
    rcases p with p | p <;> rcases q with q | q <;> simpa [resM, ef, eg, joint_eq, jIdx, shuf] using h3
  · have hj : resM V e = joint (resM V f) (resM V g) := by
      have hsym : ∀ p q, V p q = V q p := fun p q => hph.1.apply q p
      ext p q
      obtain ⟨p, rfl⟩ := (Equiv.sumCongr finSumFinEquiv finSumFinEquiv).surjective p
      obtain ⟨q, rfl⟩ := (Equiv.sumCongr finSumFinEquiv finSumFinEquiv).surjective q
      have z1 := fun a b => hz (.inl a) (.inl b)
      have z2 := fun a b => hz (.inl a) (.inr b)
      have z3 := fun a b => hz (.inr a) (.inl b)
      have z4 := fun a b => hz (.inr a) (.inr b)
      have z1' := fun a b => (hsym _ _).trans (z1 a b)
      have z2' := fun a b => (hsym _ _).trans (z2 a b)
      have z3' := fun a b => (hsym _ _).trans (z3 a b)
      have z4' := fun a b => (hsym _ _).trans (z4 a b)
      simp only [Sum.map_inl, Sum.map_inr] at z1 z2 z3 z4 z1' z2' z3' z4'
      rcases p with (p | p) | (p | p) <;> rcases q with (q | q) | (q | q) <;> simp [resM, joint_eq, jIdx, shuf, ef, eg, z1, z2, z3, z4, z1', z2', z3', z4']
    have h3 := sympSpectrum_joint h1 h2
    rw [joint_smul, ← hj] at h3
    have h4 := thermal_sum_unique hspe h3 fun x => thermalEntropy ((x - 1) / 2)
    rw [← hsum, h4, Fin.sum_univ_add]
    simp

/-- the triangle inequality of the entropy, one half -/
theorem entropy_triangle (f : Fin N → Fin L) (g : Fin M → Fin L) (hb : Function.Bijective (Sum.elim f g)) {V : Matrix (Fin L ⊕ Fin L) (Fin L ⊕ Fin L) ℝ} {ν : Fin N → ℝ} {κ : Fin M → ℝ} {τ : Fin L → ℝ}
    (hκ : ∀ k, 1 ≤ κ k) (hτ : ∀ k, 1 ≤ τ k) (h1 : SympSpectrum (resM V f) ν) (h2 : SympSpectrum (resM V g) κ) (hsp : SympSpectrum V τ) :
    ∑ k, thermalEntropy ((ν k - 1) / 2) ≤ ∑ k, thermalEntropy ((τ k - 1) / 2) + ∑ k, thermalEntropy ((κ k - 1) / 2) := by
  obtain ⟨-, S, hS, e⟩ := hsp
  have hsp : SympSpectrum V τ := ⟨fun k => by linarith [hτ k], S, hS, e⟩
  let r : Fin L → ℝ := fun k => Real.arsinh (Real.sqrt ((τ k - 1) / 2))
  have hr2 : ∀ k, Real.sinh (r k) ^ 2 = (τ k - 1) / 2 := fun k => by
    simp only [r]
    rw [Real.sinh_arsinh, Real.sq_sqrt (by linarith [hτ k])]
  have hr1 : ∀ k, Real.cosh (r k) ^ 2 + Real.sinh (r k) ^ 2 = τ k := fun k => by
    rw [Real.cosh_sq, hr2]; ring
  let a : Fin L → Fin (2 * L) := fun k => quadEquiv L (.inl k)
  let c : Fin L → Fin (2 * L) := fun k => quadEquiv L (.inr k)
  have hac : Function.Bijective (Sum.elim a c) := by
    have : Sum.elim a c = quadEquiv L := by funext x; rcases x with x | x <;> rfl
    rw [this]; exact (quadEquiv L).bijective
  have hW := purS_symp hS r
  obtain ⟨W, hWe⟩ : ∃ W, W = purS S r * (purS S r)ᵀ := ⟨_, rfl⟩
  have hWs : W ∈ symplecticGroup (Fin (2 * L)) ℝ := hWe ▸ mul_mem hW (SymplecticGroup.transpose_mem hW)
  have hWsym : W.IsSymm := by rw [hWe]; exact isSymm_mul_transpose_self _
  have hWV : resM W a = V := by
    have h := pur_half S r
    simp only [hr1] at h
    rw [hWe, e, ← h]
    rfl
  have hWsp : SympSpectrum W fun _ => 1 := ⟨fun _ => one_pos, purS S r, hW, by
    have : diagonal (Sum.elim (fun _ : Fin (2 * L) => (1 : ℝ)) fun _ : Fin (2 * L) => 1) = 1 := by
      rw [← diagonal_one]; congr 1; funext p; rcases p with p | p <;> rfl
    rw [this, Matrix.mul_one, hWe]⟩
  have hWp : Physical W 2 := (physical_iff_spectrum _ 2 (by norm_num) _ hWsp).mpr fun _ => by norm_num
  have hspec : ∀ {l : ℕ} (h : Fin l → Fin (2 * L)), Function.Injective h → ∃ ω, SympSpectrum (resM W h) ω ∧ ∀ k, 1 ≤ ω k := fun h hi => by
    obtain ⟨ω, k1, k2⟩ := sympSpectrum_physical _ 2 (by norm_num) (physical_submatrix _ _ hWp h hi)
    rw [show (2 : ℝ) / 2 = 1 by norm_num, one_smul] at k1
    exact ⟨ω, k1, k2⟩
  have ha : Function.Injective a := fun x y h => Sum.inl_injective (hac.1 (by simpa using h))
  have hc : Function.Injective c := fun x y h => Sum.inr_injective (hac.1 (by simpa using h))
  have hf : Function.Injective f := fun x y h => Sum.inl_injective (hb.1 (by simpa using h))
  have hg : Function.Injective g := fun x y h => Sum.inr_injective (hb.1 (by simpa using h))
  have hdis : ∀ x y, a x ≠ c y := fun x y h => by have := hac.1 (a₁ := .inl x) (a₂ := .inr y) h; simp at this
  have hdis' : ∀ x y, f x ≠ g y := fun x y h => by have := hb.1 (a₁ := .inl x) (a₂ := .inr y) h; simp at this
  let d : Fin (M + L) → Fin (2 * L) := Fin.append (a ∘ g) c
  have hdi : Function.Injective d := by
    intro x y h
    induction x using Fin.addCases with
    | left x =>
      induction y using Fin.addCases with
      | left y =>
        simp only [d, Fin.append_left, Function.comp_apply] at h
        rw [hg (ha h)]
      | right y =>
        simp only [d, Fin.append_left, Fin.append_right, Function.comp_apply] at h
        exact absurd h (hdis _ _)
    | right x =>
      induction y using Fin.addCases with
      | left y =>
        simp only [d, Fin.append_left, Fin.append_right, Function.comp_apply] at h
        exact absurd h.symm (hdis _ _)
      | right y =>
        simp only [d, Fin.append_right] at h
        rw [hc h]
  have hfd : Function.Bijective (Sum.elim (a ∘ f) d) := by
    constructor
    · rintro (x | x) (y | y) h
      · exact congrArg Sum.inl (hf (ha h))
      · induction y using Fin.addCases with
        | left y =>
          simp only [d, Sum.elim_inl, Sum.elim_inr, Fin.append_left, Function.comp_apply] at h
          exact absurd (ha h) (hdis' _ _)
        | right y =>
          simp only [d, Sum.elim_inl, Sum.elim_inr, Fin.append_right, Function.comp_apply] at h
          exact absurd h (hdis _ _)
      · induction x using Fin.addCases with
        | left x =>
          simp only [d, Sum.elim_inl, Sum.elim_inr, Fin.append_left, Function.comp_apply] at h
          exact absurd (ha h).symm (hdis' _ _)
        | right x =>
          simp only [d, Sum.elim_inl, Sum.elim_inr, Fin.append_right, Function.comp_apply] at h
          exact absurd h.symm (hdis _ _)
      · exact congrArg Sum.inr (hdi h)
    · intro k
      obtain ⟨x | x, rfl⟩ := hac.2 k
      · obtain ⟨y | y, rfl⟩ := hb.2 x
        · exact ⟨.inl y, rfl⟩
        · exact ⟨.inr (Fin.castAdd L y), by simp [d]⟩
      · exact ⟨.inr (Fin.natAdd M x), by simp [d]⟩
  obtain ⟨σ, hσ, hσ1⟩ := hspec c hc
  obtain ⟨ω, hω, hω1⟩ := hspec d hdi
  have z : thermalEntropy ((1 - 1) / 2) = 0 := by rw [sub_self, zero_div, thermalEntropy_zero]
  have s1 := bipartite_spectrum W hWsym hWs a c hac τ σ (by change SympSpectrum (resM W a) τ; rw [hWV]; exact hsp) hσ (fun x => thermalEntropy ((x - 1) / 2)) z
  have s2 := bipartite_spectrum W hWsym hWs (a ∘ f) d hfd ν ω (by
    have : W.submatrix (Sum.map (a ∘ f) (a ∘ f)) (Sum.map (a ∘ f) (a ∘ f)) = resM (resM W a) f := by
      ext p q; rcases p with p | p <;> rcases q with q | q <;> rfl
    rw [this, hWV]; exact h1) hω (fun x => thermalEntropy ((x - 1) / 2)) z
  have r1 : resM (resM W d) (Fin.castAdd L) = resM V g := by
    rw [← hWV]
    ext p q; rcases p with p | p <;> rcases q with q | q <;> simp [resM, d]
  have r2 : resM (resM W d) (Fin.natAdd M) = resM W c := by
    ext p q; rcases p with p | p <;> rcases q with q | q <;> simp [resM, d]
  have e1 : ∀ {l : ℕ} (X : Matrix (Fin l ⊕ Fin l) (Fin l ⊕ Fin l) ℝ), ((2 : ℝ) / 2) • X = X := fun X => by rw [show (2 : ℝ) / 2 = 1 by norm_num, one_smul]
  have s3 := (entropy_consecutive (hbar := 2) (by norm_num) (physical_submatrix _ _ hWp d hdi) hκ hσ1 hω1 (by rw [e1]; exact r1 ▸ h2) (by rw [e1]; exact r2 ▸ hσ) (by rw [e1]; exact hω)).1
  linarith

/-- two complementary lists of modes -/
theorem complement_bijective (l₁ l₂ : List ℕ) (hl : (l₁ ++ l₂).Perm (List.range L)) (f : Fin l₁.length → Fin L) (g : Fin l₂.length → Fin L) (hf : ∀ a, (f a : ℕ) = l₁[a]) (hg : ∀ a, (g a : ℕ) = l₂[a]) :
    Function.Bijective (Sum.elim f g) := by
  have hn : (l₁ ++ l₂).Nodup := hl.nodup_iff.mpr List.nodup_range
  have hlen : l₁.length + l₂.length = L := by simpa using hl.length_eq
  have hd := List.nodup_append.mp hn
  have hinj : Function.Injective (Sum.elim f g) := by
    rintro (a | a) (b | b) h
    · exact congrArg Sum.inl (Fin.ext ((hd.1.getElem_inj_iff).mp ((hf a).symm.trans ((congrArg Fin.val h).trans (hf b)))))
    · exact absurd ((hf a).symm.trans ((congrArg Fin.val h).trans (hg b))) (hd.2.2 _ (List.getElem_mem _) _ (List.getElem_mem _))
    · exact absurd ((hg a).symm.trans ((congrArg Fin.val h).trans (hf b))).symm (hd.2.2 _ (List.getElem_mem _) _ (List.getElem_mem _))
    · exact congrArg Sum.inr (Fin.ext ((hd.2.1.getElem_inj_iff).mp ((hg a).symm.trans ((congrArg Fin.val h).trans (hg b)))))
  exact (Fintype.bijective_iff_injective_and_card _).mpr ⟨hinj, by simp [hlen]⟩

/-- **C106** the entropy of a Gaussian state is at least the difference and at most the sum of the entropies of the states that `reduced_state` returns for a list of modes and for the others, and it is the sum precisely when the two groups of modes
are uncorrelated -/
theorem entropy_subadditive (eigvals : ℕ → RArr → ℕ → ℂ) (he : EigvalsContract eigvals) (close : ℝ → ℝ → Bool) (hc : ∀ x y, close x y = true ↔ x = y) (hh : 0 < hbar) (s : GState ℝ) (hs : s.len = 2 * L)
    (hps : Physical (phase L L s.cov) hbar) (l₁ l₂ : List ℕ) (h1 : l₁ ≠ []) (h2 : l₂ ≠ []) (hl : (l₁ ++ l₂).Perm (List.range L)) :
    ∃ s₁ s₂ a b e, reducedState s l₁ = .ok s₁ ∧ reducedState s l₂ = .ok s₂ ∧ vonneumannEntropy eigvals close 0 (2 * l₁.length) (2 * l₁.length) s₁.cov hbar = .ok a ∧
      vonneumannEntropy eigvals close 0 (2 * l₂.length) (2 * l₂.length) s₂.cov hbar = .ok b ∧ vonneumannEntropy eigvals close 0 (2 * L) (2 * L) s.cov hbar = .ok e ∧
      |a - b| ≤ e ∧ e ≤ a + b ∧ (e = a + b ↔ Uncorrelated (modeSet l₁) (phase L L s.cov)) := by
  have hmem : ∀ m, m ∈ l₁ ∨ m ∈ l₂ ↔ m < L := fun m => by rw [← List.mem_append, hl.mem_iff, List.mem_range]
  have hn : (l₁ ++ l₂).Nodup := hl.nodup_iff.mpr List.nodup_range
  have hd := List.nodup_append.mp hn
  obtain ⟨s₁, hs₁, hr₁⟩ := reducedState_eq L s hs l₁ h1 fun m hm => (hmem m).mp (.inl hm)
  obtain ⟨s₂, hs₂, hr₂⟩ := reducedState_eq L s hs l₂ h2 fun m hm => (hmem m).mp (.inr hm)
  obtain ⟨f, hf, hfa, -, c1⟩ := reduction_restrict s s₁ l₁ hd.1 (fun m hm => (hmem m).mp (.inl hm)) hr₁
  obtain ⟨g, hg, hga, -, c2⟩ := reduction_restrict s s₂ l₂ hd.2.1 (fun m hm => (hmem m).mp (.inr hm)) hr₂
  have hp1 : Physical (phase l₁.length l₁.length s₁.cov) hbar := c1 ▸ physical_submatrix _ _ hps f hf
  have hp2 : Physical (phase l₂.length l₂.length s₂.cov) hbar := c2 ▸ physical_submatrix _ _ hps g hg
  obtain ⟨ν, hν, hν1⟩ := sympSpectrum_physical _ hbar hh hp1
  obtain ⟨κ, hκ, hκ1⟩ := sympSpectrum_physical _ hbar hh hp2
  obtain ⟨τ, hτ, hτ1⟩ := sympSpectrum_physical _ hbar hh hps
  have hbij := complement_bijective l₁ l₂ hl f g hfa hga
  obtain ⟨k1, k2⟩ := entropy_parts hh f g hbij hps hν1 hκ1 hτ1 (c1 ▸ hν) (c2 ▸ hκ) hτ
  refine ⟨s₁, s₂, _, _, _, hs₁, hs₂, vonneumannEntropy_correct eigvals he close hc _ hbar hp1 ν hν, vonneumannEntropy_correct eigvals he close hc _ hbar hp2 κ hκ, vonneumannEntropy_correct eigvals he close hc _ hbar hps τ hτ,
    ?_, k1, k2.trans ?_⟩
  · have hbij' : Function.Bijective (Sum.elim g f) := by
      have : Sum.elim g f = Sum.elim f g ∘ Equiv.sumComm _ _ := by funext x; rcases x with x | x <;> rfl
      rw [this]; exact hbij.comp (Equiv.sumComm _ _).bijective
    have hν' : SympSpectrum (resM ((2 / hbar) • phase L L s.cov) f) ν := by
      change SympSpectrum ((2 / hbar) • resM (phase L L s.cov) f) ν
      rw [← c1]; exact hν
    have hκ' : SympSpectrum (resM ((2 / hbar) • phase L L s.cov) g) κ := by
      change SympSpectrum ((2 / hbar) • resM (phase L L s.cov) g) κ
      rw [← c2]; exact hκ
    have t1 := entropy_triangle (V := (2 / hbar) • phase L L s.cov) f g hbij hκ1 hτ1 hν' hκ' hτ
    have t2 := entropy_triangle (V := (2 / hbar) • phase L L s.cov) g f hbij' hν1 hτ1 hκ' hν' hτ
    rw [abs_le]
    constructor <;> linarith
  have hfm : ∀ k, f k ∈ (modeSet l₁ : Finset (Fin L)) := fun k => by
    rw [modeSet, Finset.mem_filter, hfa]
    exact ⟨Finset.mem_univ _, List.getElem_mem _⟩
  have hgm : ∀ k, g k ∉ (modeSet l₁ : Finset (Fin L)) := fun k hk => by
    rw [modeSet, Finset.mem_filter, hga] at hk
    exact hd.2.2 _ hk.2 _ (List.getElem_mem _) rfl
  have hcase : ∀ p : Fin L ⊕ Fin L, (Sum.elim id id p ∈ (modeSet l₁ : Finset (Fin L)) → ∃ p', p = Sum.map f f p') ∧ (Sum.elim id id p ∉ (modeSet l₁ : Finset (Fin L)) → ∃ q', p = Sum.map g g q') := by
    intro p
    have key : ∀ k : Fin L, (k ∈ (modeSet l₁ : Finset (Fin L)) → ∃ a, k = f a) ∧ (k ∉ (modeSet l₁ : Finset (Fin L)) → ∃ a, k = g a) := fun k => by
      obtain ⟨x, rfl⟩ := hbij.2 k
      rcases x with x | x
      · exact ⟨fun _ => ⟨x, rfl⟩, fun h => absurd (hfm x) h⟩
      · exact ⟨fun h => absurd h (hgm x), fun _ => ⟨x, rfl⟩⟩
    rcases p with p | p
    · exact ⟨fun h => by obtain ⟨a, ha⟩ := (key p).1 h; exact ⟨.inl a, by rw [ha]; rfl⟩, fun h => by obtain ⟨a, ha⟩ := (key p).2 h; exact ⟨.inl a, by rw [ha]; rfl⟩⟩
    · exact ⟨fun h => by obtain ⟨a, ha⟩ := (key p).1 h; exact ⟨.inr a, by rw [ha]; rfl⟩, fun h => by obtain ⟨a, ha⟩ := (key p).2 h; exact ⟨.inr a, by rw [ha]; rfl⟩⟩
  constructor
  · intro hz p q hpq
    by_cases hp : Sum.elim id id p ∈ (modeSet l₁ : Finset (Fin L))
    · obtain ⟨p', rfl⟩ := (hcase p).1 hp
      obtain ⟨q', rfl⟩ := (hcase q).2 (hpq.mp hp)
      exact hz p' q'
    · have hq : Sum.elim id id q ∈ (modeSet l₁ : Finset (Fin L)) := by
        by_contra hq
        exact hp (hpq.mpr hq)
      obtain ⟨p', rfl⟩ := (hcase p).2 hp
      obtain ⟨q', rfl⟩ := (hcase q).1 hq
      rw [← hps.1.apply]
      exact hz q' p'
  · intro hu p q
    refine hu _ _ ⟨fun _ => ?_, fun _ => ?_⟩
    · rcases q with q | q <;> exact hgm q
    · rcases p with p | p <;> exact hfm p

/-- the hypotheses hold for a two-mode squeezed vacuum, whose modes are correlated, so that the inequality is strict -/
example (eigvals : ℕ → RArr → ℕ → ℂ) (he : EigvalsContract eigvals) (close : ℝ → ℝ → Bool) (hc : ∀ x y, close x y = true ↔ x = y) :
    ∃ s₁ s₂ a b e, reducedState (⟨4, fun _ => 0, tmsExample⟩ : GState ℝ) [1] = .ok s₁ ∧ reducedState (⟨4, fun _ => 0, tmsExample⟩ : GState ℝ) [0] = .ok s₂ ∧
      vonneumannEntropy eigvals close 0 2 2 s₁.cov 2 = .ok a ∧ vonneumannEntropy eigvals close 0 2 2 s₂.cov 2 = .ok b ∧ vonneumannEntropy eigvals close 0 4 4 tmsExample 2 = .ok e ∧ e < a + b := by
  have hp : Physical (phase 2 2 tmsExample) 2 := (physical_iff_spectrum _ 2 (by norm_num) _ tmsExample_spec).mpr fun _ => by norm_num
  obtain ⟨s₁, s₂, a, b, e, h1, h2, h3, h4, h5, -, h6, h7⟩ := entropy_subadditive eigvals he close hc (by norm_num) (⟨4, fun _ => 0, tmsExample⟩ : GState ℝ) (L := 2) rfl hp [1] [0] (by simp) (by simp) (by decide)
  refine ⟨s₁, s₂, a, b, e, h1, h2, h3, h4, h5, lt_of_le_of_ne h6 fun heq => ?_⟩
  have h8 := h7.mp heq (.inl 0) (.inl 1) (by simp [modeSet])
  simp [phase, quad, tmsExample] at h8

end

end Verif.Props
