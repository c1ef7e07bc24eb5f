/-
The density matrix of a product of two Gaussian states.
-/
import Verif.Lemmas.FockReduce

namespace Verif.Lemmas.FPar
open Matrix Verif.Lemmas.FTr Verif.Lemmas.GInt

variable {κ τ : Type} [Fintype κ] [DecidableEq κ] [Fintype τ] [DecidableEq τ]

noncomputable section

/-- the means of two independent systems -/
def prodV (m₁ : κ ⊕ κ → ℝ) (m₂ : τ ⊕ τ → ℝ) : (κ ⊕ τ) ⊕ (κ ⊕ τ) → ℝ := Sum.elim m₁ m₂ ∘ (shuf κ τ).symm

/-- the covariance matrix of two independent systems -/
def prodM (W₁ : Matrix (κ ⊕ κ) (κ ⊕ κ) ℝ) (W₂ : Matrix (τ ⊕ τ) (τ ⊕ τ) ℝ) : Matrix ((κ ⊕ τ) ⊕ (κ ⊕ τ)) ((κ ⊕ τ) ⊕ (κ ⊕ τ)) ℝ :=
  (fromBlocks W₁ 0 0 W₂).submatrix (shuf κ τ).symm (shuf κ τ).symm

theorem prodM_add (A B : Matrix (κ ⊕ κ) (κ ⊕ κ) ℝ) (C D : Matrix (τ ⊕ τ) (τ ⊕ τ) ℝ) : prodM (A + B) (C + D) = prodM A C + prodM B D := by
  ext p q
  rcases p with (p | p) | (p | p) <;> rcases q with (q | q) | (q | q) <;> simp [prodM, shuf]

theorem prodM_smul (c : ℝ) (A : Matrix (κ ⊕ κ) (κ ⊕ κ) ℝ) (C : Matrix (τ ⊕ τ) (τ ⊕ τ) ℝ) : prodM (c • A) (c • C) = c • prodM A C := by
  ext p q
  rcases p with (p | p) | (p | p) <;> rcases q with (q | q) | (q | q) <;> simp [prodM, shuf]

theorem prodM_one : prodM (1 : Matrix (κ ⊕ κ) (κ ⊕ κ) ℝ) (1 : Matrix (τ ⊕ τ) (τ ⊕ τ) ℝ) = 1 := by
  unfold prodM
  rw [fromBlocks_one, submatrix_one_equiv]

theorem prodM_inv (W₁ : Matrix (κ ⊕ κ) (κ ⊕ κ) ℝ) (W₂ : Matrix (τ ⊕ τ) (τ ⊕ τ) ℝ) (h1 : IsUnit W₁.det) (h2 : IsUnit W₂.det) : (prodM W₁ W₂)⁻¹ = prodM W₁⁻¹ W₂⁻¹ := by
  refine inv_eq_right_inv ?_
  unfold prodM
  rw [submatrix_mul_equiv, fromBlocks_multiply, Matrix.mul_nonsing_inv _ h1, Matrix.mul_nonsing_inv _ h2]
  simp only [Matrix.mul_zero, Matrix.zero_mul, add_zero, zero_add]
  rw [fromBlocks_one, submatrix_one_equiv]

theorem prodM_det (W₁ : Matrix (κ ⊕ κ) (κ ⊕ κ) ℝ) (W₂ : Matrix (τ ⊕ τ) (τ ⊕ τ) ℝ) : (prodM W₁ W₂).det = W₁.det * W₂.det := by
  unfold prodM
  rw [det_submatrix_equiv_self, det_fromBlocks_zero₂₁]

theorem prodM_quad (W₁ : Matrix (κ ⊕ κ) (κ ⊕ κ) ℝ) (W₂ : Matrix (τ ⊕ τ) (τ ⊕ τ) ℝ) (v : κ ⊕ κ → ℝ) (w : τ ⊕ τ → ℝ) :
    prodV v w ⬝ᵥ prodM W₁ W₂ *ᵥ prodV v w = v ⬝ᵥ W₁ *ᵥ v + w ⬝ᵥ W₂ *ᵥ w := by
  unfold prodM prodV
  rw [submatrix_mulVec_equiv, Equiv.symm_symm, Function.comp_assoc, Equiv.symm_comp_self, Function.comp_id, comp_equiv_dotProduct_comp_equiv, fromBlocks_mulVec]
  simp [Sum.elim_comp_inl_inr, sumElim_dotProduct_sumElim]

theorem cohQ_sum (hbar : ℝ) (α : κ → ℂ) (β : τ → ℂ) : cohQ hbar (Sum.elim α β) = prodV (cohQ hbar α) (cohQ hbar β) := by
  funext p
  rcases p with (p | p) | (p | p) <;> rfl

theorem prodV_sub (a b : κ ⊕ κ → ℝ) (c d : τ ⊕ τ → ℝ) : prodV (a - b) (c - d) = prodV a c - prodV b d := by
  funext p
  rcases p with (p | p) | (p | p) <;> rfl

theorem hus_prod (m₁ : κ ⊕ κ → ℝ) (m₂ : τ ⊕ τ → ℝ) (W₁ : Matrix (κ ⊕ κ) (κ ⊕ κ) ℝ) (W₂ : Matrix (τ ⊕ τ) (τ ⊕ τ) ℝ) (h1 : W₁.PosDef) (h2 : W₂.PosDef) (hbar : ℝ) (hh : 0 < hbar)
    (α : κ → ℂ) (β : τ → ℂ) : hus (prodV m₁ m₂) (prodM W₁ W₂) hbar (Sum.elim α β) = hus m₁ W₁ hbar α * hus m₂ W₂ hbar β := by
  have hd : 0 ≤ ((1 / hbar) • W₁).det := by
    rw [det_smul]
    exact mul_nonneg (by positivity) h1.det_pos.le
  unfold hus
  rw [cohQ_sum, ← prodV_sub, prodM_inv _ _ h1.det_pos.ne'.isUnit h2.det_pos.ne'.isUnit, prodM_quad, ← prodM_smul, prodM_det, Real.sqrt_mul hd, neg_add, add_div, Real.exp_add, div_mul_div_comm]

theorem hs_mul {I J : Type} {f : I → ℂ} {g : J → ℂ} {a b : ℂ} (hf : HasSum f a) (hg : HasSum g b) : HasSum (fun x : J × I => f x.2 * g x.1) (a * b) := by
  have h := hf.mul hg (summable_mul_of_summable_norm hf.summable.norm hg.summable.norm)
  rw [← (Equiv.prodComm J I).hasSum_iff] at h
  exact h

/-- the density matrix of a product state -/
theorem IsFock.prod {m₁ : κ ⊕ κ → ℝ} {m₂ : τ ⊕ τ → ℝ} {W₁ : Matrix (κ ⊕ κ) (κ ⊕ κ) ℝ} {W₂ : Matrix (τ ⊕ τ) (τ ⊕ τ) ℝ} (h1 : W₁.PosDef) (h2 : W₂.PosDef) {hbar : ℝ} (hh : 0 < hbar)
    {ρ₁ : (κ → ℕ) → (κ → ℕ) → ℂ} {ρ₂ : (τ → ℕ) → (τ → ℕ) → ℂ} (f1 : IsFock m₁ W₁ hbar ρ₁) (f2 : IsFock m₂ W₂ hbar ρ₂) :
    IsFock (prodV m₁ m₂) (prodM W₁ W₂) hbar fun i j : κ ⊕ τ → ℕ => ρ₁ (i ∘ Sum.inl) (j ∘ Sum.inl) * ρ₂ (i ∘ Sum.inr) (j ∘ Sum.inr) := by
  intro γ
  obtain ⟨α, β, rfl⟩ : ∃ α β, γ = Sum.elim α β := ⟨γ ∘ Sum.inl, γ ∘ Sum.inr, (Sum.elim_comp_inl_inr γ).symm⟩
  have hs := hs_mul (f1 α) (f2 β)
  rw [← (quadIdx κ τ).hasSum_iff]
  refine hs_eq hs (fun q => ?_) ?_
  · show amp (Sum.elim α β) (Sum.elim q.2.1 q.1.1) * (ρ₁ q.2.1 q.2.2 * ρ₂ q.1.1 q.1.2) * (starRingEnd ℂ) (amp (Sum.elim α β) (Sum.elim q.2.2 q.1.2)) =
      (amp α q.2.1 * ρ₁ q.2.1 q.2.2 * (starRingEnd ℂ) (amp α q.2.2)) * (amp β q.1.1 * ρ₂ q.1.1 q.1.2 * (starRingEnd ℂ) (amp β q.1.2))
    rw [amp_sum, amp_sum, map_mul]
    ring
  · rw [hus_prod m₁ m₂ W₁ W₂ h1 h2 hbar hh, Fintype.sum_sum_type, Real.exp_add, ← Complex.ofReal_mul]
    congr 1
    simp only [Sum.elim_inl, Sum.elim_inr]
    ring

end

end Verif.Lemmas.FPar
