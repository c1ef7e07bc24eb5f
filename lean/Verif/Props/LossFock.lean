/-
C84: photon loss acts on the density matrix as the coupling with an environment mode on a beam splitter; on photon numbers it is binomial.
-/
import Verif.Lemmas.FockProduct
import Verif.Props.ExpandTensor
import Verif.Props.Loss
import Verif.Props.EntropyFock
import Verif.Props.FidelityFock

set_option linter.unusedSectionVars false
set_option linter.unusedSimpArgs false

namespace Verif.Props
open Verif.Model Verif.Model.Symp Verif.Model.Loss Verif.Spec Verif.Lemmas Verif.Lemmas.Symp Verif.Lemmas.Heis Verif.Lemmas.FPar Matrix
open scoped ComplexOrder

/-- a block-diagonal positive semidefinite matrix -/
theorem posSemidef_blocks {m n : Type} [Fintype m] [DecidableEq m] [Fintype n] [DecidableEq n] {A : Matrix m m ℂ} {D : Matrix n n ℂ} (hA : A.PosSemidef) (hD : D.PosSemidef) :
    (fromBlocks A 0 0 D).PosSemidef := by
  rw [posSemidef_iff_dotProduct_mulVec] at *
  refine ⟨by rw [Matrix.IsHermitian, fromBlocks_conjTranspose, hA.1.eq, hD.1.eq, conjTranspose_zero, conjTranspose_zero], fun x => ?_⟩
  have e : star x ⬝ᵥ fromBlocks A 0 0 D *ᵥ x = star (x ∘ Sum.inl) ⬝ᵥ A *ᵥ (x ∘ Sum.inl) + star (x ∘ Sum.inr) ⬝ᵥ D *ᵥ (x ∘ Sum.inr) := by
    rw [fromBlocks_mulVec, zero_mulVec, zero_mulVec, add_zero, zero_add]
    simp only [dotProduct, Fintype.sum_sum_type, Sum.elim_inl, Sum.elim_inr, Pi.star_apply, Function.comp_apply]
  rw [e]
  exact add_nonneg (hA.2 _) (hD.2 _)

variable {N M : ℕ} {hbar : ℝ}

theorem product_physical {V₁ : Matrix (Fin N ⊕ Fin N) (Fin N ⊕ Fin N) ℝ} {V₂ : Matrix (Fin M ⊕ Fin M) (Fin M ⊕ Fin M) ℝ} (h1 : Physical V₁ hbar) (h2 : Physical V₂ hbar)
    (V : Matrix (Fin (N + M) ⊕ Fin (N + M)) (Fin (N + M) ⊕ Fin (N + M)) ℝ) (hV : resM V finSumFinEquiv = prodM V₁ V₂) : Physical V hbar := by
  have hVe : V = (fromBlocks V₁ 0 0 V₂).submatrix ((shuf _ _).symm ∘ Sum.map finSumFinEquiv.symm finSumFinEquiv.symm) ((shuf _ _).symm ∘ Sum.map finSumFinEquiv.symm finSumFinEquiv.symm) := by
    have h3 : (resM V finSumFinEquiv).submatrix (Sum.map finSumFinEquiv.symm finSumFinEquiv.symm) (Sum.map finSumFinEquiv.symm finSumFinEquiv.symm) = V := by
      ext p q
      rcases p with p | p <;> rcases q with q | q <;> simp [resM]
    rw [← h3, hV]
    rfl
  refine ⟨?_, ?_⟩
  · rw [hVe, Matrix.IsSymm, transpose_submatrix, fromBlocks_transpose, h1.1.eq, h2.1.eq, transpose_zero, transpose_zero]
  · have h := (posSemidef_blocks h1.2 h2.2).submatrix ((shuf (Fin N) (Fin M)).symm ∘ Sum.map finSumFinEquiv.symm finSumFinEquiv.symm)
    convert h using 1
    rw [hVe]
    ext p q
    obtain ⟨p, rfl⟩ := (Equiv.sumCongr finSumFinEquiv finSumFinEquiv).surjective p
    obtain ⟨q, rfl⟩ := (Equiv.sumCongr finSumFinEquiv finSumFinEquiv).surjective q
    rcases p with (p | p) | (p | p) <;> rcases q with (q | q) | (q | q) <;> simp [shuf, omega, Matrix.J, Matrix.one_apply, Fin.ext_iff] <;> omega

/-- **C84** two independent systems: a Gaussian state of `N + M` modes without correlations between the first `N` and the last `M` modes has the product of the density matrices. -/
theorem product_fock (hh : 0 < hbar) {mu₁ mu₂ mu : ℕ → ℝ} {cov₁ cov₂ cov : ℕ → ℕ → ℝ} (h1 : Physical (phase N N cov₁) hbar) (h2 : Physical (phase M M cov₂) hbar)
    (hmu : resV (phaseVec (N + M) mu) finSumFinEquiv = prodV (phaseVec N mu₁) (phaseVec M mu₂))
    (hcov : resM (phase (N + M) (N + M) cov) finSumFinEquiv = prodM (phase N N cov₁) (phase M M cov₂))
    {ρ₁ : (Fin N → ℕ) → (Fin N → ℕ) → ℂ} {ρ₂ : (Fin M → ℕ) → (Fin M → ℕ) → ℂ} (f1 : IsFockMatrix N mu₁ cov₁ hbar ρ₁) (f2 : IsFockMatrix M mu₂ cov₂ hbar ρ₂) :
    IsFockMatrix (N + M) mu cov hbar fun i j => ρ₁ (fun k => i (Fin.castAdd M k)) (fun k => j (Fin.castAdd M k)) * ρ₂ (fun k => i (Fin.natAdd N k)) (fun k => j (Fin.natAdd N k)) := by
  have h := (IsFock.prod (fock_W_posDef h1 hh) (fock_W_posDef h2 hh) hh (isFock_iff.mp f1) (isFock_iff.mp f2)).relabel finSumFinEquiv.symm
  rw [isFock_iff]
  have eV : resV (prodV (phaseVec N mu₁) (phaseVec M mu₂)) finSumFinEquiv.symm = phaseVec (N + M) mu := by
    rw [← hmu]
    funext p
    rcases p with p | p <;> simp [resV]
  have eM : resM (prodM (phase N N cov₁ + (hbar / 2) • 1) (phase M M cov₂ + (hbar / 2) • 1)) finSumFinEquiv.symm = phase (N + M) (N + M) cov + (hbar / 2) • 1 := by
    rw [prodM_add, prodM_smul, prodM_one, ← hcov]
    ext p q
    rcases p with p | p <;> rcases q with q | q <;> simp [resM, Matrix.one_apply]
  rw [eV, eM] at h
  exact h

/-- the arrays of two independent systems -/
theorem product_arrays (N M : ℕ) (m : Fin N ⊕ Fin N → ℝ) (n : Fin M ⊕ Fin M → ℝ) (V₁ : Matrix (Fin N ⊕ Fin N) (Fin N ⊕ Fin N) ℝ) (V₂ : Matrix (Fin M ⊕ Fin M) (Fin M ⊕ Fin M) ℝ) :
    ∃ (mu : ℕ → ℝ) (cov : ℕ → ℕ → ℝ), resV (phaseVec (N + M) mu) finSumFinEquiv = prodV m n ∧ resM (phase (N + M) (N + M) cov) finSumFinEquiv = prodM V₁ V₂ := by
  obtain ⟨cov, hcov⟩ := exists_cov (resM (prodM V₁ V₂) finSumFinEquiv.symm)
  obtain ⟨mu, hmu⟩ := exists_phaseVec (resV (prodV m n) finSumFinEquiv.symm)
  refine ⟨mu, cov, ?_, ?_⟩
  · rw [hmu]
    funext p
    rcases p with p | p <;> simp [resV]
  · rw [hcov]
    ext p q
    rcases p with p | p <;> rcases q with q | q <;> simp [resM]

/-! ### the environment mode -/

/-- the identity operator -/
theorem identity_gaussian (l : ℕ) : IsGaussianUnitary (1 : Matrix (Fin l ⊕ Fin l) (Fin l ⊕ Fin l) ℝ) 0 fun i j : Fin l → ℕ => if i = j then 1 else 0 := by
  have hf : Function.Injective (Fin.elim0 : Fin 0 → Fin l) := fun a => a.elim0
  have h0 : IsGaussianUnitary (1 : Matrix (Fin 0 ⊕ Fin 0) (Fin 0 ⊕ Fin 0) ℝ) 0 fun _ _ => 1 := by
    refine ⟨⟨fun k => k.elim0, fun k => k.elim0⟩, ⟨fun j k => ?_, fun j k => ?_⟩⟩
    all_goals
      rw [if_pos (Subsingleton.elim j k)]
      have h := hasSum_fintype (fun _ : Fin 0 → ℕ => (starRingEnd ℂ) (1 : ℂ) * 1)
      exact hs_eq h (fun _ => rfl) (by simp)
  have := onModes_gaussian hf h0 (α' := 0) (fun a => a.elim0) fun _ _ => rfl
  have e : onModes (Fin.elim0 : Fin 0 → Fin l) (fun _ _ => (1 : ℂ)) = fun i j : Fin l → ℕ => if i = j then 1 else 0 := by
    funext i j
    have hc : (∀ k, k ∉ Set.range (Fin.elim0 : Fin 0 → Fin l) → i k = j k) ↔ i = j := ⟨fun h => funext fun k => h k fun ⟨a, _⟩ => a.elim0, fun h k _ => by rw [h]⟩
    unfold onModes
    by_cases h : i = j
    · rw [if_pos h, if_pos (hc.mpr h)]
    · rw [if_neg h, if_neg (mt hc.mp h)]
  rw [embed_one, e] at this
  exact this

/-- the thermal state of one mode -/
theorem thermal_fock (hh : 0 < hbar) (n : ℝ) (hn : 0 ≤ n) (mu : ℕ → ℝ) (cov : ℕ → ℕ → ℝ) (hmu : phaseVec 1 mu = 0) (hcov : phase 1 1 cov = ((2 * n + 1) * hbar / 2) • 1) :
    Physical (phase 1 1 cov) hbar ∧ IsFockMatrix 1 mu cov hbar fun i j => if i = j then (thermalProb n (i 0) : ℂ) else 0 := by
  have hph : Physical (phase 1 1 cov) hbar := by
    rw [hcov]
    refine (physical_iff_spectrum _ hbar hh.le (fun _ => (2 * n + 1) * hbar / 2) ⟨fun _ => by positivity, 1, one_mem _, ?_⟩).mpr fun _ => ?_
    · rw [Matrix.one_mul, transpose_one, Matrix.mul_one, smul_one_eq_diagonal]
      congr 1
      funext p
      rcases p with p | p <;> rfl
    · nlinarith
  obtain ⟨ρ, _, _, -, hρ, -⟩ := fock_gram (N := 1) mu hh hph
  have key := gaussian_thermal (one_mem _) (identity_gaussian 1) hbar hh (fun _ => 2 * n + 1) (fun _ => by linarith) mu cov (by
    rw [hcov, Matrix.one_mul, transpose_one, Matrix.mul_one]
    ext p q
    by_cases hpq : p = q
    · subst hpq
      rcases p with p | p <;> simp <;> ring
    · simp [hpq]) (fun k => by
      have h1 := congrFun hmu (.inl k)
      have h2 := congrFun hmu (.inr k)
      simp only [phaseVec, quad, Sum.elim_inl, Sum.elim_inr, Pi.zero_apply] at h1 h2
      rw [h1, h2]; simp) ρ hρ
  refine ⟨hph, ?_⟩
  have e : ρ = fun i j => if i = j then (thermalProb n (i 0) : ℂ) else 0 := by
    funext i j
    refine (key i j).unique (hs_eq (hasSum_ite_eq i (if i = j then (thermalProb n (i 0) : ℂ) else 0)) (fun m => ?_) rfl)
    by_cases h : m = i
    · subst h
      rw [if_pos rfl, if_pos rfl, Fin.prod_univ_one]
      have h2 : (2 * n + 1 - 1) / 2 = n := by ring
      rw [h2]
      by_cases hj : m = j
      · simp [hj]
      · simp [hj, Ne.symm hj]
    · rw [if_neg h, if_neg (Ne.symm h)]
      simp
  rwa [e] at hρ

/-! ### the beam splitter -/

/-- the matrix of a real beam splitter -/
theorem beamSplitter_real (theta : ℝ) : phase 2 2 (Symp.beamSplitter theta 0) =
    fromBlocks !![Real.cos theta, -Real.sin theta; Real.sin theta, Real.cos theta] 0 0 !![Real.cos theta, -Real.sin theta; Real.sin theta, Real.cos theta] := by
  unfold Symp.beamSplitter
  rw [phase_interferometer]
  congr 1
  all_goals
    ext a b
    fin_cases a <;> fin_cases b <;> simp [toMatrix, -Complex.ofReal_cos, -Complex.ofReal_sin]

/-- the modes that meet on the beam splitter -/
def lossModes (m : Fin N) : Fin 2 → Fin (N + 1) := ![m.castSucc, Fin.last N]

theorem lossModes_injective (m : Fin N) : Function.Injective (lossModes m) := by
  intro a b h
  fin_cases a <;> fin_cases b
  · rfl
  · exact absurd h (Fin.castSucc_lt_last m).ne
  · exact absurd h (Fin.castSucc_lt_last m).ne'
  · rfl

/-- a row of an embedded matrix -/
theorem embed_row {ι κ : Type} [Fintype ι] [DecidableEq ι] [Fintype κ] [DecidableEq κ] (f : ι → κ) (hf : Function.Injective f) (S : Matrix ι ι ℝ) (v : κ → ℝ) (a : ι) :
    ∑ x, embed f S (f a) x * v x = ∑ b, S a b * v (f b) := by
  refine (Fintype.sum_of_injective f hf _ _ (fun x hx => ?_) fun b => by rw [embed_apply f hf]).symm
  rw [embed_apply_right f S _ x fun i h => hx ⟨i, h⟩, Matrix.one_apply_ne fun h => hx ⟨a, h⟩, zero_mul]

/-- rows of the system modes -/
theorem loss_row (theta : ℝ) (m : Fin N) (v : Fin (N + 1) ⊕ Fin (N + 1) → ℝ) (k : Fin N) :
    (∑ x, embed (both (lossModes m)) (phase 2 2 (Symp.beamSplitter theta 0)) (.inl k.castSucc) x * v x =
      if k = m then Real.cos theta * v (.inl k.castSucc) - Real.sin theta * v (.inl (Fin.last N)) else v (.inl k.castSucc)) ∧
    ∑ x, embed (both (lossModes m)) (phase 2 2 (Symp.beamSplitter theta 0)) (.inr k.castSucc) x * v x =
      if k = m then Real.cos theta * v (.inr k.castSucc) - Real.sin theta * v (.inr (Fin.last N)) else v (.inr k.castSucc) := by
  have hi := both_injective _ (lossModes_injective m)
  by_cases hk : k = m
  · subst hk
    have e1 := embed_row (both (lossModes k)) hi (phase 2 2 (Symp.beamSplitter theta 0)) v (.inl 0)
    have e2 := embed_row (both (lossModes k)) hi (phase 2 2 (Symp.beamSplitter theta 0)) v (.inr 0)
    rw [if_pos rfl, if_pos rfl]
    refine ⟨e1.trans ?_, e2.trans ?_⟩
    all_goals
      rw [beamSplitter_real]
      simp [Fintype.sum_sum_type, both, lossModes]
      ring
  · rw [if_neg hk, if_neg hk]
    have hl : ∀ p, both (lossModes m) p ≠ .inl k.castSucc := by
      rintro (a | a) h
      · fin_cases a
        · exact hk (Fin.castSucc_injective _ (Sum.inl_injective h)).symm
        · exact (Fin.castSucc_lt_last k).ne' (Sum.inl_injective h)
      · simp [both] at h
    have hr : ∀ p, both (lossModes m) p ≠ .inr k.castSucc := by
      rintro (a | a) h
      · simp [both] at h
      · fin_cases a
        · exact hk (Fin.castSucc_injective _ (Sum.inr_injective h)).symm
        · exact (Fin.castSucc_lt_last k).ne' (Sum.inr_injective h)
    constructor
    · simp only [embed_apply_left _ _ _ _ hl, Matrix.one_apply, ite_mul, one_mul, zero_mul, Finset.sum_ite_eq, Finset.mem_univ, if_true]
    · simp only [embed_apply_left _ _ _ _ hr, Matrix.one_apply, ite_mul, one_mul, zero_mul, Finset.sum_ite_eq, Finset.mem_univ, if_true]

/-- the quadratures of the system modes behind the beam splitter -/
theorem loss_moments (s : GState ℝ) (T nbar : ℝ) (h0 : 0 ≤ T) (h1 : T ≤ 1) (m : Fin N) (mu : ℕ → ℝ) (cov : ℕ → ℕ → ℝ)
    (hmu : resV (phaseVec (N + 1) mu) finSumFinEquiv = prodV (phaseVec N s.mu) 0) (hcov : resM (phase (N + 1) (N + 1) cov) finSumFinEquiv = prodM (phase N N s.cov) (((2 * nbar + 1) * hbar / 2) • 1))
    (S : Matrix (Fin (N + 1) ⊕ Fin (N + 1)) (Fin (N + 1) ⊕ Fin (N + 1)) ℝ) (hS : S = embed (both (lossModes m)) (phase 2 2 (Symp.beamSplitter (Real.arccos (Real.sqrt T)) 0))) :
    resV (S *ᵥ phaseVec (N + 1) mu) Fin.castSucc = phaseVec N (lossState N s T m nbar hbar).mu ∧
      resM (S * phase (N + 1) (N + 1) cov * Sᵀ) Fin.castSucc = phase N N (lossState N s T m nbar hbar).cov := by
  have hc : Real.cos (Real.arccos (Real.sqrt T)) = Real.sqrt T := Real.cos_arccos (by linarith [Real.sqrt_nonneg T]) (Real.sqrt_le_one.mpr h1)
  have hs : Real.sin (Real.arccos (Real.sqrt T)) ^ 2 = 1 - T := by
    rw [Real.sin_arccos, Real.sq_sqrt (by rw [Real.sq_sqrt h0]; linarith), Real.sq_sqrt h0]
  have hTT := Real.mul_self_sqrt h0
  have hrow := loss_row (Real.arccos (Real.sqrt T)) m
  rw [← hS, hc] at hrow
  generalize Real.sin (Real.arccos (Real.sqrt T)) = t at hs hrow
  have nl : ∀ k : Fin N, ¬ (k : ℕ) = m + N := fun k => by omega
  have nr : ∀ k : Fin N, ¬ N + (k : ℕ) = m := fun k => by omega
  have er : ∀ k : Fin N, (N + (k : ℕ) = m + N) ↔ k = m := fun k => by rw [Fin.ext_iff]; omega
  have el : ∀ k : Fin N, ((k : ℕ) = m) ↔ k = m := fun k => by rw [Fin.ext_iff]
  have n1 : ∀ k k' : Fin N, ¬ (k : ℕ) = N + k' := fun k k' => by omega
  have n2 : ∀ k k' : Fin N, ¬ N + (k : ℕ) = k' := fun k k' => by omega
  have n3 : ∀ k k' : Fin N, (N + (k : ℕ) = N + k') ↔ k = k' := fun k k' => by rw [Fin.ext_iff]; omega
  have v1 : ∀ k : Fin N, phaseVec (N + 1) mu (.inl k.castSucc) = s.mu k := fun k => congrFun hmu (.inl (.inl k))
  have v2 : ∀ k : Fin N, phaseVec (N + 1) mu (.inr k.castSucc) = s.mu (N + k) := fun k => congrFun hmu (.inr (.inl k))
  have v3 : phaseVec (N + 1) mu (.inl (Fin.last N)) = 0 := congrFun hmu (.inl (.inr 0))
  have v4 : phaseVec (N + 1) mu (.inr (Fin.last N)) = 0 := congrFun hmu (.inr (.inr 0))
  have c := fun p q => congrFun (congrFun hcov p) q
  have c1 : ∀ k k' : Fin N, phase (N + 1) (N + 1) cov (.inl k.castSucc) (.inl k'.castSucc) = s.cov k k' := fun k k' => c (.inl (.inl k)) (.inl (.inl k'))
  have c2 : ∀ k k' : Fin N, phase (N + 1) (N + 1) cov (.inl k.castSucc) (.inr k'.castSucc) = s.cov k (N + k') := fun k k' => c (.inl (.inl k)) (.inr (.inl k'))
  have c3 : ∀ k k' : Fin N, phase (N + 1) (N + 1) cov (.inr k.castSucc) (.inl k'.castSucc) = s.cov (N + k) k' := fun k k' => c (.inr (.inl k)) (.inl (.inl k'))
  have c4 : ∀ k k' : Fin N, phase (N + 1) (N + 1) cov (.inr k.castSucc) (.inr k'.castSucc) = s.cov (N + k) (N + k') := fun k k' => c (.inr (.inl k)) (.inr (.inl k'))
  have d1 : ∀ k : Fin N, phase (N + 1) (N + 1) cov (.inl k.castSucc) (.inl (Fin.last N)) = 0 := fun k => c (.inl (.inl k)) (.inl (.inr 0))
  have d2 : ∀ k : Fin N, phase (N + 1) (N + 1) cov (.inl k.castSucc) (.inr (Fin.last N)) = 0 := fun k => c (.inl (.inl k)) (.inr (.inr 0))
  have d3 : ∀ k : Fin N, phase (N + 1) (N + 1) cov (.inr k.castSucc) (.inl (Fin.last N)) = 0 := fun k => c (.inr (.inl k)) (.inl (.inr 0))
  have d4 : ∀ k : Fin N, phase (N + 1) (N + 1) cov (.inr k.castSucc) (.inr (Fin.last N)) = 0 := fun k => c (.inr (.inl k)) (.inr (.inr 0))
  have d5 : ∀ k : Fin N, phase (N + 1) (N + 1) cov (.inl (Fin.last N)) (.inl k.castSucc) = 0 := fun k => c (.inl (.inr 0)) (.inl (.inl k))
  have d6 : ∀ k : Fin N, phase (N + 1) (N + 1) cov (.inl (Fin.last N)) (.inr k.castSucc) = 0 := fun k => c (.inl (.inr 0)) (.inr (.inl k))
  have d7 : ∀ k : Fin N, phase (N + 1) (N + 1) cov (.inr (Fin.last N)) (.inl k.castSucc) = 0 := fun k => c (.inr (.inr 0)) (.inl (.inl k))
  have d8 : ∀ k : Fin N, phase (N + 1) (N + 1) cov (.inr (Fin.last N)) (.inr k.castSucc) = 0 := fun k => c (.inr (.inr 0)) (.inr (.inl k))
  have e1 : phase (N + 1) (N + 1) cov (.inl (Fin.last N)) (.inl (Fin.last N)) = (2 * nbar + 1) * hbar / 2 := (c (.inl (.inr 0)) (.inl (.inr 0))).trans (by simp [prodM, shuf])
  have e2 : phase (N + 1) (N + 1) cov (.inl (Fin.last N)) (.inr (Fin.last N)) = 0 := (c (.inl (.inr 0)) (.inr (.inr 0))).trans (by simp [prodM, shuf])
  have e3 : phase (N + 1) (N + 1) cov (.inr (Fin.last N)) (.inl (Fin.last N)) = 0 := (c (.inr (.inr 0)) (.inl (.inr 0))).trans (by simp [prodM, shuf])
  have e4 : phase (N + 1) (N + 1) cov (.inr (Fin.last N)) (.inr (Fin.last N)) = (2 * nbar + 1) * hbar / 2 := (c (.inr (.inr 0)) (.inr (.inr 0))).trans (by simp [prodM, shuf])
  generalize phase (N + 1) (N + 1) cov = V at c1 c2 c3 c4 d1 d2 d3 d4 d5 d6 d7 d8 e1 e2 e3 e4
  generalize phaseVec (N + 1) mu = v at v1 v2 v3 v4
  clear c hcov hmu hS
  constructor
  · funext p
    rcases p with k | k
    · refine ((hrow v k).1).trans ?_
      rw [v1, v3]
      simp only [phaseVec, quad, Sum.elim_inl, lossState, fac, el, nl, or_false]
      split_ifs <;> ring
    · refine ((hrow v k).2).trans ?_
      rw [v2, v4]
      simp only [phaseVec, quad, Sum.elim_inr, lossState, fac, er, nr, false_or]
      split_ifs <;> ring
  · have hprod : ∀ p q, (S * V * Sᵀ) p q = ∑ y, S q y * ∑ x, S p x * V x y := fun p q => by
      rw [Matrix.mul_apply]
      refine Finset.sum_congr rfl fun y _ => ?_
      rw [transpose_apply, Matrix.mul_apply, mul_comm]
    ext p q
    rcases p with k | k <;> rcases q with k' | k'
    · refine (hprod (.inl k.castSucc) (.inl k'.castSucc)).trans ?_
      rw [(hrow _ k').1, (hrow _ k).1, (hrow _ k).1]
      simp only [c1, c2, c3, c4, d1, d2, d3, d4, d5, d6, d7, d8, e1, e2, e3, e4, phase, of_apply, quad, Sum.elim_inl, Sum.elim_inr, lossState, fac, el, nl, or_false, er, nr, false_or, Fin.val_inj, n1, n2, n3,
        false_and, if_false]
      by_cases hk : k = m <;> by_cases hk' : k' = m
      · subst hk; subst hk'
        simp only [if_true, and_self]
        linear_combination (2 * nbar + 1) * hbar / 2 * hs
      · subst hk
        have : k ≠ k' := Ne.symm hk'
        simp only [if_true, if_neg hk', this, false_and, if_false]
        ring
      · subst hk'
        simp only [if_true, if_neg hk, hk, false_and, if_false]
        ring
      · simp only [if_neg hk, if_neg hk', hk, and_false, if_false]
        ring
    · refine (hprod (.inl k.castSucc) (.inr k'.castSucc)).trans ?_
      rw [(hrow _ k').2, (hrow _ k).1, (hrow _ k).1]
      simp only [c1, c2, c3, c4, d1, d2, d3, d4, d5, d6, d7, d8, e1, e2, e3, e4, phase, of_apply, quad, Sum.elim_inl, Sum.elim_inr, lossState, fac, el, nl, or_false, er, nr, false_or, Fin.val_inj, n1, n2, n3,
        false_and, if_false]
      by_cases hk : k = m <;> by_cases hk' : k' = m <;> simp only [hk, hk', if_true, if_false] <;> ring
    · refine (hprod (.inr k.castSucc) (.inl k'.castSucc)).trans ?_
      rw [(hrow _ k').1, (hrow _ k).2, (hrow _ k).2]
      simp only [c1, c2, c3, c4, d1, d2, d3, d4, d5, d6, d7, d8, e1, e2, e3, e4, phase, of_apply, quad, Sum.elim_inl, Sum.elim_inr, lossState, fac, el, nl, or_false, er, nr, false_or, Fin.val_inj, n1, n2, n3,
        false_and, if_false]
      by_cases hk : k = m <;> by_cases hk' : k' = m <;> simp only [hk, hk', if_true, if_false] <;> ring
    · refine (hprod (.inr k.castSucc) (.inr k'.castSucc)).trans ?_
      rw [(hrow _ k').2, (hrow _ k).2, (hrow _ k).2]
      simp only [c1, c2, c3, c4, d1, d2, d3, d4, d5, d6, d7, d8, e1, e2, e3, e4, phase, of_apply, quad, Sum.elim_inl, Sum.elim_inr, lossState, fac, el, nl, or_false, er, nr, false_or, Fin.val_inj, n1, n2, n3,
        false_and, if_false]
      by_cases hk : k = m <;> by_cases hk' : k' = m
      · subst hk; subst hk'
        simp only [if_true, and_self]
        linear_combination (2 * nbar + 1) * hbar / 2 * hs
      · subst hk
        have : k ≠ k' := Ne.symm hk'
        simp only [if_true, if_neg hk', this, false_and, if_false]
        ring
      · subst hk'
        simp only [if_true, if_neg hk, hk, false_and, if_false]
        ring
      · simp only [if_neg hk, if_neg hk', hk, and_false, if_false]
        ring

/-- the operator that acts as `B` on the mode `m` and the environment mode (the last one) -/
theorem onModes_loss (m : Fin N) (B : (Fin 2 → ℕ) → (Fin 2 → ℕ) → ℂ) : onModes (lossModes m) B = fun i j : Fin (N + 1) → ℕ =>
    if ∀ k : Fin N, k ≠ m → i k.castSucc = j k.castSucc then B ![i m.castSucc, i (Fin.last N)] ![j m.castSucc, j (Fin.last N)] else 0 := by
  funext i j
  have hc : (∀ k, k ∉ Set.range (lossModes m) → i k = j k) ↔ ∀ k : Fin N, k ≠ m → i k.castSucc = j k.castSucc := by
    constructor
    · intro h k hk
      refine h _ ?_
      rintro ⟨a, ha⟩
      fin_cases a
      · exact hk (Fin.castSucc_injective _ ha).symm
      · exact (Fin.castSucc_lt_last k).ne' ha
    · intro h k hk
      induction k using Fin.lastCases with
      | last => exact absurd ⟨1, rfl⟩ hk
      | cast k => exact h k fun e => hk ⟨0, by rw [e]; rfl⟩
  have hv : ∀ i : Fin (N + 1) → ℕ, i ∘ lossModes m = ![i m.castSucc, i (Fin.last N)] := fun i => by
    funext a
    fin_cases a <;> rfl
  unfold onModes
  by_cases h : ∀ k : Fin N, k ≠ m → i k.castSucc = j k.castSucc
  · rw [if_pos h, if_pos (hc.mpr h), hv, hv]
  · rw [if_neg h, if_neg (mt hc.mp h)]

/-- **C84** `loss(mu, cov, T, mode, nbar, hbar)` (symplectic.py:322-349): the returned means and covariances are those of the state obtained by adding an environment mode in the thermal state
with `nbar` photons, letting `mode` and the environment mode interfere on a beam splitter of transmission `T` (the unitary `B` of `beam_splitter(arccos √T, 0)`), and tracing out the environment. -/
theorem loss_dilation (hh : 0 < hbar) (s : GState ℝ) (hs : s.len = 2 * N) (hph : Physical (phase N N s.cov) hbar) (T nbar : ℝ) (h0 : 0 ≤ T) (h1 : T ≤ 1) (hn : 0 ≤ nbar) (m : Fin N)
    (ρ : (Fin N → ℕ) → (Fin N → ℕ) → ℂ) (hρ : IsFockMatrix N s.mu s.cov hbar ρ) (B : (Fin 2 → ℕ) → (Fin 2 → ℕ) → ℂ)
    (hB : IsGaussianUnitary (phase 2 2 (Symp.beamSplitter (Real.arccos (Real.sqrt T)) 0)) 0 B) (W : (Fin (N + 1) → ℕ) → (Fin (N + 1) → ℕ) → ℂ)
    (hW : ∀ i j, W i j = if ∀ k : Fin N, k ≠ m → i k.castSucc = j k.castSucc then B ![i m.castSucc, i (Fin.last N)] ![j m.castSucc, j (Fin.last N)] else 0) :
    ∃ r, loss s T m nbar hbar = .ok r ∧ ∃ σ : (Fin (N + 1) → ℕ) → (Fin (N + 1) → ℕ) → ℂ,
      (∀ i j, HasSum (fun x : (Fin (N + 1) → ℕ) × (Fin (N + 1) → ℕ) => W i x.1 *
          (ρ (fun k => x.1 k.castSucc) (fun k => x.2 k.castSucc) * if x.1 (Fin.last N) = x.2 (Fin.last N) then (thermalProb nbar (x.1 (Fin.last N)) : ℂ) else 0) * (starRingEnd ℂ) (W j x.2)) (σ i j)) ∧
      ∀ ρ', IsFockMatrix N r.mu r.cov hbar ρ' → IsPartialTrace Fin.castSucc σ ρ' := by
  refine ⟨_, loss_eq N s hs T h0 m m.2 nbar hbar, ?_⟩
  obtain ⟨cov₂, hcov₂⟩ := exists_cov (N := 1) (((2 * nbar + 1) * hbar / 2) • 1)
  obtain ⟨mu₂, hmu₂⟩ := exists_phaseVec (N := 1) 0
  obtain ⟨hph₂, hρ₂⟩ := thermal_fock hh nbar hn mu₂ cov₂ hmu₂ hcov₂
  obtain ⟨mu, cov, hmu, hcov⟩ := product_arrays N 1 (phaseVec N s.mu) (phaseVec 1 mu₂) (phase N N s.cov) (phase 1 1 cov₂)
  have hphJ := product_physical hph hph₂ _ hcov
  have hρJ := product_fock hh hph hph₂ hmu hcov hρ hρ₂
  obtain ⟨S, hS⟩ : ∃ S, S = embed (both (lossModes m)) (phase 2 2 (Symp.beamSplitter (Real.arccos (Real.sqrt T)) 0)) := ⟨_, rfl⟩
  have hSs : S ∈ symplecticGroup (Fin (N + 1)) ℝ := by
    rw [hS]; exact embed_symp _ (lossModes_injective m) _ (beamSplitter_symplectic _ _)
  have hG : IsGaussianUnitary S 0 W := by
    have := onModes_gaussian (lossModes_injective m) hB (α' := 0) (fun _ => rfl) fun _ _ => rfl
    rw [onModes_loss, ← hS] at this
    have e : W = _ := funext fun i => funext fun j => hW i j
    rw [e]; exact this
  obtain ⟨cov', hcov'⟩ := exists_cov (S * phase (N + 1) (N + 1) cov * Sᵀ)
  obtain ⟨mu', hmu'⟩ := exists_phaseVec (S *ᵥ phaseVec (N + 1) mu)
  have hph' : Physical (phase (N + 1) (N + 1) cov') hbar := by
    rw [hcov']; exact physical_symplectic _ _ hbar hphJ hSs
  obtain ⟨σ, _, _, -, hσ, -⟩ := fock_gram (N := N + 1) mu' hh hph'
  have hz : cohQuad hbar (0 : Fin (N + 1) → ℂ) = 0 := by
    funext p; rcases p with p | p <;> simp [cohQuad]
  have hev := gaussianUnitary_state hSs hG hbar hh mu mu' cov cov' hphJ hcov' (by rw [hmu', hz, add_zero]) _ σ hρJ hσ
  refine ⟨σ, fun i j => hs_eq (hev i j) (fun x => ?_) rfl, fun ρ' hρ' => ?_⟩
  · have e : ((fun k : Fin 1 => x.1 (Fin.natAdd N k)) = fun k => x.2 (Fin.natAdd N k)) ↔ x.1 (Fin.last N) = x.2 (Fin.last N) :=
      ⟨fun h => congrFun h 0, fun h => funext fun k => by rw [Subsingleton.elim k 0]; exact h⟩
    simp only [e]
    rfl
  · obtain ⟨τ, hτ, hτF⟩ := fock_partialTrace Fin.castSucc (Fin.castSucc_injective N) hh hph' hσ
    have hmom := loss_moments (hbar := hbar) s T nbar h0 h1 m mu cov (by rw [hmu, hmu₂]) (by rw [hcov, hcov₂]) S hS
    have hτ' : IsFockMatrix N (lossState N s T m nbar hbar).mu (lossState N s T m nbar hbar).cov hbar τ := by
      rw [isFock_iff, ← hmom.1, ← hmom.2, ← hmu', ← hcov']
      have e : resM (phase (N + 1) (N + 1) cov' + (hbar / 2) • 1) Fin.castSucc = resM (phase (N + 1) (N + 1) cov') Fin.castSucc + (hbar / 2) • 1 := by
        ext p q
        rcases p with p | p <;> rcases q with q | q <;> simp [resM, Matrix.one_apply]
      rw [← e]
      exact hτF
    rw [fockMatrix_unique hρ' hτ']
    exact hτ

/-! ### losing photons to the vacuum -/

/-- `⟨m, n|U|m + n, 0⟩` -/
theorem intA_vacuum (U : Matrix (Fin 2) (Fin 2) ℂ) (m n : ℕ) : intA U m n (m + n) 0 = ((Real.sqrt ((m + n).choose m) : ℝ) : ℂ) * U 0 0 ^ m * U 1 0 ^ n := by
  have hroot : ∀ a b c d : ℕ, a * c = b * d → root a * ((Real.sqrt c : ℝ) : ℂ) = root b * ((Real.sqrt d : ℝ) : ℂ) := fun a b c d h => by
    unfold root
    rw [← Complex.ofReal_mul, ← Complex.ofReal_mul, ← Real.sqrt_mul (Nat.cast_nonneg a), ← Real.sqrt_mul (Nat.cast_nonneg b)]
    congr 2
    exact_mod_cast h
  induction m with
  | zero =>
    induction n with
    | zero =>
      have : intA U 0 0 0 0 = 1 := by
        unfold intA
        have e : ![0, 0, 0, 0] = (0 : Fin 4 → ℕ) := by funext k; fin_cases k <;> rfl
        rw [e, fockAmp_zero]
      simp [this]
    | succ n ih =>
      have h := intA_n U 0 n (0 + n + 1) 0
      rw [root_zero, zero_mul, mul_zero, add_zero, Nat.add_sub_cancel, ih] at h
      have hne := root_ne (n := n + 1) (by omega)
      refine mul_left_cancel₀ hne ?_
      rw [← Nat.add_assoc, h]
      simp
      ring
  | succ m ih =>
    have h := intA_m U m n (m + n + 1) 0
    rw [root_zero, zero_mul, mul_zero, add_zero, Nat.add_sub_cancel, ih] at h
    have hne := root_ne (n := m + 1) (by omega)
    refine mul_left_cancel₀ hne ?_
    rw [show m + 1 + n = m + n + 1 by omega, h]
    have := hroot (m + n + 1) (m + 1) ((m + n).choose m) ((m + n + 1).choose (m + 1)) (by rw [Nat.add_one_mul_choose_eq, mul_comm])
    linear_combination U 0 0 ^ (m + 1) * U 1 0 ^ n * this

/-- appending the environment mode -/
def withEnv (i : Fin N → ℕ) (k : ℕ) : Fin (N + 1) → ℕ := Fin.snoc (α := fun _ => ℕ) i k

theorem withEnv_cast (i : Fin N → ℕ) (k : ℕ) (a : Fin N) : withEnv i k a.castSucc = i a := Fin.snoc_castSucc (α := fun _ => ℕ) _ _ _

theorem withEnv_last (i : Fin N → ℕ) (k : ℕ) : withEnv i k (Fin.last N) = k := Fin.snoc_last (α := fun _ => ℕ) _ _

theorem withEnv_ext (x : Fin (N + 1) → ℕ) : x = withEnv (fun k => x k.castSucc) (x (Fin.last N)) := by
  funext k
  induction k using Fin.lastCases with
  | last => rw [withEnv_last]
  | cast k => rw [withEnv_cast]

/-- the environment occupation numbers -/
def envPairs (i j : Fin N → ℕ) : ℕ ≃ {x : (Fin (N + 1) → ℕ) × (Fin (N + 1) → ℕ) // x.1 ∘ Fin.castSucc = i ∧ x.2 ∘ Fin.castSucc = j ∧ ∀ k, k ∉ Set.range (Fin.castSucc : Fin N → Fin (N + 1)) → x.1 k = x.2 k} where
  toFun k := ⟨(withEnv i k, withEnv j k), funext fun a => withEnv_cast i k a, funext fun a => withEnv_cast j k a, fun a ha => by
    induction a using Fin.lastCases with
    | last => simp only [withEnv_last]
    | cast a => exact absurd ⟨a, rfl⟩ ha⟩
  invFun x := x.1.1 (Fin.last N)
  left_inv k := withEnv_last i k
  right_inv x := by
    obtain ⟨⟨p, q⟩, h1, h2, h3⟩ := x
    have hl : p (Fin.last N) = q (Fin.last N) := h3 _ (by rintro ⟨a, ha⟩; exact (Fin.castSucc_lt_last a).ne ha)
    refine Subtype.ext (Prod.ext ?_ ?_)
    · change withEnv i (p (Fin.last N)) = p
      conv_rhs => rw [withEnv_ext p]
      rw [← h1]; rfl
    · change withEnv j (p (Fin.last N)) = q
      conv_rhs => rw [withEnv_ext q]
      rw [← h2, hl]; rfl

theorem survive_nonneg' {T : ℝ} (h0 : 0 ≤ T) (h1 : T ≤ 1) (a k : ℕ) : survive T (a + k) a = (Real.sqrt ((a + k).choose a) * Real.sqrt T ^ a * Real.sqrt (1 - T) ^ k) ^ 2 := by
  rw [survive, Nat.add_sub_cancel_left, mul_pow, mul_pow, Real.sq_sqrt (Nat.cast_nonneg _), ← pow_mul, ← pow_mul, mul_comm a 2, mul_comm k 2, pow_mul, pow_mul, Real.sq_sqrt h0, Real.sq_sqrt (by linarith)]

/-- matrix elements of the beam splitter on a mode and the environment -/
noncomputable def lossW (theta : ℝ) (m : Fin N) (i j : Fin (N + 1) → ℕ) : ℂ :=
  if ∀ k : Fin N, k ≠ m → i k.castSucc = j k.castSucc then intA (beamsplitterU theta 0) (i m.castSucc) (i (Fin.last N)) (j m.castSucc) (j (Fin.last N)) else 0

theorem lossW_zero (theta : ℝ) (m : Fin N) (i : Fin N → ℕ) (k : ℕ) (x : Fin N → ℕ) (hx : x ≠ i + Pi.single m k) : lossW theta m (withEnv i k) (withEnv x 0) = 0 := by
  unfold lossW
  split_ifs with h
  · refine intA_selection _ _ _ _ _ fun e => hx ?_
    simp only [withEnv_cast, withEnv_last] at h e
    funext a
    by_cases ha : a = m
    · subst ha; simp; omega
    · simp [Pi.single_eq_of_ne ha, h a ha]
  · rfl

theorem lossW_value (T : ℝ) (h0 : 0 ≤ T) (h1 : T ≤ 1) (m : Fin N) (i : Fin N → ℕ) (k : ℕ) :
    lossW (Real.arccos (Real.sqrt T)) m (withEnv i k) (withEnv (i + Pi.single m k) 0) = ((Real.sqrt (survive T (i m + k) (i m)) : ℝ) : ℂ) := by
  have hc : Real.cos (Real.arccos (Real.sqrt T)) = Real.sqrt T := Real.cos_arccos (by linarith [Real.sqrt_nonneg T]) (Real.sqrt_le_one.mpr h1)
  have hs : Real.sin (Real.arccos (Real.sqrt T)) = Real.sqrt (1 - T) := by rw [Real.sin_arccos, Real.sq_sqrt h0]
  unfold lossW
  rw [if_pos fun a ha => by simp [withEnv_cast, Pi.single_eq_of_ne ha]]
  simp only [withEnv_cast, withEnv_last, Pi.add_apply, Pi.single_eq_same]
  rw [intA_vacuum, survive_nonneg' h0 h1, Real.sqrt_sq (by positivity)]
  simp only [beamsplitterU, of_apply, cons_val', cons_val_zero, cons_val_one, cons_val_fin_one, hc, hs]
  push_cast
  simp

theorem thermalProb_vacuum (k : ℕ) : thermalProb 0 k = if k = 0 then 1 else 0 := by
  unfold thermalProb
  rcases k with _ | k <;> simp

/-- **C84** loss into the vacuum (`nbar = 0`): `⟨i|ρ'|j⟩` is the sum over the number `k` of lost photons of `√(p(i_m | i_m + k) p(j_m | j_m + k)) ⟨i + k e_m|ρ|j + k e_m⟩`, with `p(a | n)` the probability
that `a` out of `n` photons survive. -/
theorem loss_fock (hh : 0 < hbar) (s : GState ℝ) (hs : s.len = 2 * N) (hph : Physical (phase N N s.cov) hbar) (T : ℝ) (h0 : 0 ≤ T) (h1 : T ≤ 1) (m : Fin N)
    (ρ : (Fin N → ℕ) → (Fin N → ℕ) → ℂ) (hρ : IsFockMatrix N s.mu s.cov hbar ρ) :
    ∃ r, loss s T m 0 hbar = .ok r ∧ ∀ ρ', IsFockMatrix N r.mu r.cov hbar ρ' → ∀ i j,
      HasSum (fun k : ℕ => ((Real.sqrt (survive T (i m + k) (i m)) * Real.sqrt (survive T (j m + k) (j m)) : ℝ) : ℂ) * ρ (i + Pi.single m k) (j + Pi.single m k)) (ρ' i j) := by
  obtain ⟨U, hBM, hU⟩ := beamSplitter_matrix (Real.arccos (Real.sqrt T)) 0
  obtain ⟨hg, hS⟩ := interferometer2_gaussU U _ hU (beamsplitterU_unitary (Real.arccos (Real.sqrt T)) 0)
  have hB := gaussU_correct hS 0
  rw [← hg, ← hBM] at hB
  have hW : ∀ i j : Fin (N + 1) → ℕ, lossW (Real.arccos (Real.sqrt T)) m i j = if ∀ k : Fin N, k ≠ m → i k.castSucc = j k.castSucc then
      (fun i j : Fin 2 → ℕ => intA (beamsplitterU (Real.arccos (Real.sqrt T)) 0) (i 0) (i 1) (j 0) (j 1)) ![i m.castSucc, i (Fin.last N)] ![j m.castSucc, j (Fin.last N)] else 0 := fun i j => rfl
  obtain ⟨r, hr, σ, hσ, hp⟩ := loss_dilation hh s hs hph T 0 h0 h1 le_rfl m ρ hρ _ hB _ hW
  refine ⟨r, hr, fun ρ' hρ' i j => ?_⟩
  have htr := hp ρ' hρ' i j
  rw [← (envPairs i j).hasSum_iff] at htr
  refine hs_eq htr (fun k => ?_) rfl
  change _ = σ (withEnv i k) (withEnv j k)
  have hk := hσ (withEnv i k) (withEnv j k)
  have hz := hasSum_single (f := fun x : (Fin (N + 1) → ℕ) × (Fin (N + 1) → ℕ) => lossW (Real.arccos (Real.sqrt T)) m (withEnv i k) x.1 *
          (ρ (fun k => x.1 k.castSucc) (fun k => x.2 k.castSucc) * if x.1 (Fin.last N) = x.2 (Fin.last N) then (thermalProb 0 (x.1 (Fin.last N)) : ℂ) else 0) *
          (starRingEnd ℂ) (lossW (Real.arccos (Real.sqrt T)) m (withEnv j k) x.2)) (withEnv (i + Pi.single m k) 0, withEnv (j + Pi.single m k) 0) (fun x hx => ?_)
  · refine Eq.trans ?_ (hz.unique hk)
    simp only [withEnv_last, withEnv_cast, if_true, thermalProb_vacuum, lossW_value T h0 h1, Complex.conj_ofReal]
    push_cast
    ring
  · obtain ⟨p, q⟩ := x
    obtain ⟨x, a, rfl⟩ : ∃ x a, p = withEnv x a := ⟨_, _, withEnv_ext p⟩
    obtain ⟨y, b, rfl⟩ : ∃ y b, q = withEnv y b := ⟨_, _, withEnv_ext q⟩
    simp only [withEnv_last, withEnv_cast, thermalProb_vacuum]
    by_cases hab : a = b
    · subst hab
      by_cases ha : a = 0
      · subst ha
        by_cases hxi : x = i + Pi.single m k
        · have hyj : y ≠ j + Pi.single m k := fun h => hx (by rw [hxi, h])
          rw [lossW_zero _ m j k y hyj, map_zero, mul_zero]
        · rw [lossW_zero _ m i k x hxi, zero_mul, zero_mul]
      · simp [ha]
    · simp [hab]

/-! ### loss in several modes -/

theorem hasSum_fibres {I J : Type} {f : I → J → ℝ} {g : I → ℝ} {S : ℝ} (h0 : ∀ k i, 0 ≤ f k i) (hf : ∀ k, HasSum (f k) (g k)) (hg : HasSum g S) {u : J → ℝ} (hu : ∀ i, HasSum (fun k => f k i) (u i)) :
    HasSum u S := by
  have hs : Summable fun x : I × J => f x.1 x.2 := by
    refine (summable_prod_of_nonneg (f := fun x : I × J => f x.1 x.2) fun x => h0 _ _).mpr ⟨fun k => (hf k).summable, ?_⟩
    refine hg.summable.congr fun k => ?_
    exact ((hf k).tsum_eq).symm
  have ht := hs.hasSum
  have h1 := ht.prod_fiberwise hf
  rw [h1.unique hg] at ht
  rw [← (Equiv.prodComm J I).hasSum_iff] at ht
  exact ht.prod_fiberwise hu

theorem hs_mul_left {I : Type} {f : I → ℝ} {a : ℝ} (c : ℝ) (h : HasSum f a) : HasSum (fun i => c * f i) (c * a) := h.mul_left c

/-- the factors of the quadratures -/
noncomputable def lossD (η : Fin N → ℝ) : Matrix (Fin N ⊕ Fin N) (Fin N ⊕ Fin N) ℝ := diagonal (Sum.elim (fun k => Real.sqrt (η k)) fun k => Real.sqrt (η k))

theorem survive_one (i j : ℕ) : survive 1 i j = if i = j then 1 else 0 := by
  unfold survive
  rcases lt_trichotomy i j with h | h | h
  · rw [Nat.choose_eq_zero_of_lt h, if_neg h.ne]; simp
  · subst h; simp
  · rw [if_neg h.ne', sub_self, zero_pow (by omega), mul_zero]

/-- entries of the transformed covariance matrix -/
theorem lossD_entry (η : Fin N → ℝ) (V : Matrix (Fin N ⊕ Fin N) (Fin N ⊕ Fin N) ℝ) (c : ℝ) (p q : Fin N ⊕ Fin N) :
    (lossD η * V * lossD η + c • (1 - lossD η * lossD η)) p q =
      Sum.elim (fun k => Real.sqrt (η k)) (fun k => Real.sqrt (η k)) p * V p q * Sum.elim (fun k => Real.sqrt (η k)) (fun k => Real.sqrt (η k)) q +
        c * if p = q then 1 - Sum.elim (fun k => Real.sqrt (η k)) (fun k => Real.sqrt (η k)) p * Sum.elim (fun k => Real.sqrt (η k)) (fun k => Real.sqrt (η k)) q else 0 := by
  unfold lossD
  rw [Matrix.add_apply, mul_diagonal, diagonal_mul, Matrix.smul_apply, Matrix.sub_apply, diagonal_mul_diagonal, smul_eq_mul, Matrix.one_apply, diagonal_apply]
  split_ifs with h
  · subst h; rfl
  · rw [sub_zero]

/-- one more lossy mode -/
theorem loss_step_moments (mu : ℕ → ℝ) (cov : ℕ → ℕ → ℝ) (η : Fin N → ℝ) (h0 : ∀ k, 0 ≤ η k) (a : Fin N) (mu₁ : ℕ → ℝ) (cov₁ : ℕ → ℕ → ℝ)
    (hmu : phaseVec N mu₁ = lossD (Function.update η a 1) *ᵥ phaseVec N mu)
    (hcov : phase N N cov₁ = lossD (Function.update η a 1) * phase N N cov * lossD (Function.update η a 1) + (hbar / 2) • (1 - lossD (Function.update η a 1) * lossD (Function.update η a 1))) :
    phaseVec N (lossState N ⟨2 * N, mu₁, cov₁⟩ (η a) a 0 hbar).mu = lossD η *ᵥ phaseVec N mu ∧
      phase N N (lossState N ⟨2 * N, mu₁, cov₁⟩ (η a) a 0 hbar).cov = lossD η * phase N N cov * lossD η + (hbar / 2) • (1 - lossD η * lossD η) := by
  have hd : ∀ p : Fin N ⊕ Fin N, Sum.elim (fun k => Real.sqrt (η k)) (fun k => Real.sqrt (η k)) p =
      fac N a (η a) (quad N p) * Sum.elim (fun k => Real.sqrt (Function.update η a 1 k)) (fun k => Real.sqrt (Function.update η a 1 k)) p := by
    rintro (k | k)
    · have : ¬ (k : ℕ) = a + N := by omega
      by_cases hk : k = a
      · subst hk; simp [fac, quad]
      · simp [fac, quad, hk, this, Fin.val_inj]
    · have : ¬ N + (k : ℕ) = a := by omega
      have h2 : (N + (k : ℕ) = a + N) ↔ k = a := by rw [Fin.ext_iff]; omega
      by_cases hk : k = a
      · subst hk; simp [fac, quad, h2]
      · simp [fac, quad, hk, this, h2]
  have hm : ∀ p : Fin N ⊕ Fin N, (quad N p = a ∨ quad N p = a + N) → Sum.elim (fun k => Real.sqrt (Function.update η a 1 k)) (fun k => Real.sqrt (Function.update η a 1 k)) p = 1 ∧ fac N a (η a) (quad N p) = Real.sqrt (η a) := by
    rintro (k | k) h
    · have hk : k = a := by
        simp only [quad, Sum.elim_inl] at h
        exact Fin.ext (by omega)
      subst hk
      exact ⟨by simp, by rw [fac, if_pos h]⟩
    · have hk : k = a := by
        simp only [quad, Sum.elim_inr] at h
        exact Fin.ext (by omega)
      subst hk
      exact ⟨by simp, by rw [fac, if_pos h]⟩
  constructor
  · funext p
    have h1 : phaseVec N mu₁ p = _ := congrFun hmu p
    have h2 : phaseVec N (lossState N ⟨2 * N, mu₁, cov₁⟩ (η a) a 0 hbar).mu p = fac N a (η a) (quad N p) * phaseVec N mu₁ p := rfl
    rw [h2, h1, lossD, lossD, mulVec_diagonal, mulVec_diagonal, hd p, mul_assoc]
  · ext p q
    have h2 : phase N N (lossState N ⟨2 * N, mu₁, cov₁⟩ (η a) a 0 hbar).cov p q = fac N a (η a) (quad N p) * phase N N cov₁ p q * fac N a (η a) (quad N q) +
      if quad N p = quad N q ∧ (quad N p = a ∨ quad N p = a + N) then (1 - η a) * (2 * 0 + 1) * hbar / 2 else 0 := rfl
    have hT := Real.mul_self_sqrt (h0 a)
    rw [h2, hcov, lossD_entry, lossD_entry, hd p, hd q]
    by_cases hpq : p = q
    · subst hpq
      simp only [if_true, true_and]
      split_ifs with h
      · obtain ⟨e1, e2⟩ := hm p h
        rw [e1, e2]
        linear_combination (hbar / 2) * hT
      · rw [fac, if_neg h]
        ring
    · have : quad N p ≠ quad N q := fun h => hpq (quad_injective N h)
      rw [if_neg hpq, if_neg hpq, if_neg fun h => this h.1]
      ring

/-- losses in one more mode -/
theorem loss_combine {η : Fin N → ℝ} (h0 : ∀ k, 0 ≤ η k) (h1 : ∀ k, η k ≤ 1) (a : Fin N) (p p₁ : (Fin N → ℕ) → ℝ) (hp0 : ∀ i, 0 ≤ p i)
    (hp₁ : ∀ j, HasSum (fun i => (∏ k, survive (Function.update η a 1 k) (i k) (j k)) * p i) (p₁ j)) (j : Fin N → ℕ) (P : ℝ)
    (hP : HasSum (fun n : ℕ => survive (η a) (j a + n) (j a) * p₁ (j + Pi.single a n)) P) : HasSum (fun i => (∏ k, survive (η k) (i k) (j k)) * p i) P := by
  have hsurv : ∀ k x y, 0 ≤ survive (η k) x y := fun k x y => survive_nonneg (h0 k) (h1 k) x y
  have hprod : ∀ (n : ℕ) (i : Fin N → ℕ), ∏ k, survive (Function.update η a 1 k) (i k) ((j + Pi.single a n : Fin N → ℕ) k) = (if i a = j a + n then 1 else 0) * ∏ k ∈ Finset.univ.erase a, survive (η k) (i k) (j k) := fun n i => by
    rw [← Finset.mul_prod_erase _ _ (Finset.mem_univ a), Function.update_self, survive_one, Pi.add_apply, Pi.single_eq_same]
    congr 1
    refine Finset.prod_congr rfl fun k hk => ?_
    rw [Function.update_of_ne (Finset.ne_of_mem_erase hk), Pi.add_apply, Pi.single_eq_of_ne (Finset.ne_of_mem_erase hk), add_zero]
  have hfib : ∀ n : ℕ, HasSum (fun i : Fin N → ℕ => survive (η a) (j a + n) (j a) * ((if i a = j a + n then 1 else 0) * (∏ k ∈ Finset.univ.erase a, survive (η k) (i k) (j k)) * p i))
      (survive (η a) (j a + n) (j a) * p₁ (j + Pi.single a n)) := fun n => by
    refine hs_mul_left _ (hs_eq (hp₁ (j + Pi.single a n)) (fun i => ?_) rfl)
    rw [hprod]
  refine hasSum_fibres (I := ℕ) (J := Fin N → ℕ) (fun n i => ?_) hfib hP fun i => ?_
  · refine mul_nonneg (hsurv _ _ _) (mul_nonneg (mul_nonneg ?_ (Finset.prod_nonneg fun k _ => hsurv _ _ _)) (hp0 i))
    split_ifs <;> norm_num
  · rw [← Finset.mul_prod_erase _ (fun k => survive (η k) (i k) (j k)) (Finset.mem_univ a)]
    by_cases hle : j a ≤ i a
    · refine hs_eq (hasSum_ite_eq (i a - j a) (survive (η a) (i a) (j a) * (∏ k ∈ Finset.univ.erase a, survive (η k) (i k) (j k)) * p i)) (fun n => ?_) rfl
      by_cases hn : n = i a - j a
      · have e : j a + n = i a := by omega
        rw [if_pos hn, if_pos e.symm, e]
        ring
      · rw [if_neg hn, if_neg (by omega)]
        ring
    · have hz : survive (η a) (i a) (j a) = 0 := by rw [survive, Nat.choose_eq_zero_of_lt (by omega)]; simp
      rw [hz, zero_mul, zero_mul]
      refine hasSum_zero.congr_fun fun n => ?_
      rw [if_neg (by omega)]
      ring

/-- photon-number distributions behind losses in the modes `A` -/
theorem lossy_induction (hh : 0 < hbar) (mu : ℕ → ℝ) (cov : ℕ → ℕ → ℝ) (hph : Physical (phase N N cov) hbar) (ρ : (Fin N → ℕ) → (Fin N → ℕ) → ℂ) (hρ : IsFockMatrix N mu cov hbar ρ) (A : Finset (Fin N)) :
    ∀ η : Fin N → ℝ, (∀ k, 0 ≤ η k) → (∀ k, η k ≤ 1) → (∀ k, k ∉ A → η k = 1) → ∀ (mu' : ℕ → ℝ) (cov' : ℕ → ℕ → ℝ), phaseVec N mu' = lossD η *ᵥ phaseVec N mu →
      phase N N cov' = lossD η * phase N N cov * lossD η + (hbar / 2) • (1 - lossD η * lossD η) → Physical (phase N N cov') hbar ∧
      ∀ ρ', IsFockMatrix N mu' cov' hbar ρ' → ∀ j, HasSum (fun i => (∏ k, survive (η k) (i k) (j k)) * (ρ i i).re) (ρ' j j).re := by
  induction A using Finset.induction_on with
  | empty =>
    intro η h0 h1 hA mu' cov' hmu hcov
    have hη : η = fun _ => 1 := funext fun k => hA k (Finset.notMem_empty k)
    have hD : lossD η = 1 := by
      rw [hη, lossD]
      ext p q
      rcases p with p | p <;> rcases q with q | q <;> simp [diagonal_apply, Matrix.one_apply]
    rw [hD, one_mulVec] at hmu
    rw [hD, Matrix.one_mul, Matrix.mul_one, Matrix.mul_one, sub_self, smul_zero, add_zero] at hcov
    refine ⟨hcov ▸ hph, fun ρ' hρ' j => ?_⟩
    have : ρ' = ρ := by
      refine fockMatrix_unique (mu := mu) (cov := cov) (hbar := hbar) ?_ hρ
      rw [isFock_iff] at hρ' ⊢
      rwa [hmu, hcov] at hρ'
    subst this
    refine hs_eq (hasSum_ite_eq j (ρ' j j).re) (fun i => ?_) rfl
    simp only [hη, survive_one]
    by_cases hij : i = j
    · subst hij; simp
    · obtain ⟨k, hk⟩ : ∃ k, i k ≠ j k := by by_contra h2; push Not at h2; exact hij (funext h2)
      rw [Finset.prod_eq_zero (Finset.mem_univ k) (if_neg hk), if_neg hij, zero_mul]
  | insert a A ha ih =>
    intro η h0 h1 hA mu' cov' hmu hcov
    obtain ⟨mu₁, hmu₁⟩ := exists_phaseVec (lossD (Function.update η a 1) *ᵥ phaseVec N mu)
    obtain ⟨cov₁, hcov₁⟩ := exists_cov (lossD (Function.update η a 1) * phase N N cov * lossD (Function.update η a 1) + (hbar / 2) • (1 - lossD (Function.update η a 1) * lossD (Function.update η a 1)))
    obtain ⟨hph₁, hp₁⟩ := ih (Function.update η a 1) (fun k => by by_cases hk : k = a <;> simp [hk, h0]) (fun k => by by_cases hk : k = a <;> simp [hk, h1])
      (fun k hk => by
        by_cases hka : k = a
        · simp [hka]
        · rw [Function.update_of_ne hka]; exact hA k (by simp [hka, hk])) mu₁ cov₁ hmu₁ hcov₁
    obtain ⟨ρ₁, _, _, -, hρ₁, -⟩ := fock_gram (N := N) mu₁ hh hph₁
    obtain ⟨r, hr, hloss⟩ := loss_fock hh ⟨2 * N, mu₁, cov₁⟩ rfl hph₁ (η a) (h0 a) (h1 a) a ρ₁ hρ₁
    have hr' := loss_eq N ⟨2 * N, mu₁, cov₁⟩ rfl (η a) (h0 a) a a.2 0 hbar
    obtain rfl := Except.ok.inj (hr.symm.trans hr')
    obtain ⟨e1, e2⟩ := loss_step_moments (hbar := hbar) mu cov η h0 a mu₁ cov₁ hmu₁ hcov₁
    rw [← hmu] at e1
    rw [← hcov] at e2
    have hphr := physical_loss ⟨2 * N, mu₁, cov₁⟩ _ rfl (η a) 0 hbar (h0 a) (h1 a) le_rfl hh.le a a.2 hph₁ hr
    rw [e2] at hphr
    refine ⟨hphr, fun ρ' hρ' j => ?_⟩
    have hsum := hloss ρ' (by rw [isFock_iff] at hρ' ⊢; rwa [e1, e2]) j j
    have hre := Complex.hasSum_re hsum
    have hp0 : ∀ i, 0 ≤ (ρ i i).re := fun i => by
      obtain ⟨r, hr, e⟩ := fockMatrix_diag hh hph hρ i
      rw [e]; exact hr
    refine loss_combine h0 h1 a (fun i => (ρ i i).re) (fun i => (ρ₁ i i).re) hp0 (hp₁ ρ₁ hρ₁) j _ (hs_eq hre (fun n => ?_) rfl)
    rw [Complex.re_ofReal_mul, Real.mul_self_sqrt (survive_nonneg (h0 a) (h1 a) _ _)]

/-- **C84** photon loss in every mode: `passive_transformation` with the diagonal matrix of the `√η_k` (symplectic.py, the loss channel on all modes) turns the photon-number distribution `p` of a state into
`p'(j) = Σ_i Π_k p(j_k | i_k) p(i)`, each photon of mode `k` surviving independently with probability `η_k`. -/
theorem passive_loss_photons (hh : 0 < hbar) (s : GState ℝ) (hs : s.len = 2 * N) (hph : Physical (phase N N s.cov) hbar) (η : Fin N → ℝ) (h0 : ∀ k, 0 ≤ η k) (h1 : ∀ k, η k ≤ 1)
    (ρ : (Fin N → ℕ) → (Fin N → ℕ) → ℂ) (hρ : IsFockMatrix N s.mu s.cov hbar ρ) (T : ℕ → ℕ → ℂ) (hT : ∀ i j : Fin N, T i j = if i = j then (Real.sqrt (η i) : ℂ) else 0) :
    ∃ r, passiveTransformation s N N T hbar = .ok r ∧ Physical (phase N N r.cov) hbar ∧
      ∀ ρ', IsFockMatrix N r.mu r.cov hbar ρ' → ∀ j, HasSum (fun i => (∏ k, survive (η k) (i k) (j k)) * (ρ i i).re) (ρ' j j).re := by
  obtain ⟨r, hr, -, hmu, hcov⟩ := passive_phase s N N T hbar hs
  have hD : phase N N (Symp.interferometer N N T) = lossD η := by
    rw [phase_interferometer, lossD]
    ext p q
    rcases p with p | p <;> rcases q with q | q <;> simp only [fromBlocks_apply₁₁, fromBlocks_apply₁₂, fromBlocks_apply₂₁, fromBlocks_apply₂₂, toMatrix, of_apply, hT, Matrix.neg_apply, diagonal_apply, Sum.inl.injEq,
      Sum.inr.injEq, reduceCtorEq, if_false, Sum.elim_inl, Sum.elim_inr] <;> split_ifs <;> simp
  have hDt : (lossD η)ᵀ = lossD η := diagonal_transpose _
  rw [hD] at hmu
  rw [hD, hDt] at hcov
  exact ⟨r, hr, lossy_induction hh s.mu s.cov hph ρ hρ Finset.univ η h0 h1 (fun k hk => absurd (Finset.mem_univ k) hk) r.mu r.cov hmu hcov⟩

/-- **C84** `update_probabilities_with_loss` (fock_tensors.py:462-489) applied to the photon-number probabilities of a Gaussian state below a cutoff: every entry is at most the photon-number probability of the
state behind the losses (`passive_transformation` with the matrix of the `√η_k`), and tends to it when the cutoff grows. -/
theorem updateLoss_state (hN : 0 < N) (hN9 : N ≤ 9) (hh : 0 < hbar) (s : GState ℝ) (hs : s.len = 2 * N) (hph : Physical (phase N N s.cov) hbar) (etas : List ℝ) (hlen : etas.length = N)
    (h : ∀ e ∈ etas, 0 ≤ e ∧ e ≤ 1) (ρ : (Fin N → ℕ) → (Fin N → ℕ) → ℂ) (hρ : IsFockMatrix N s.mu s.cov hbar ρ) (T : ℕ → ℕ → ℂ)
    (hT : ∀ i j : Fin N, T i j = if i = j then (Real.sqrt (etas.getD i 0) : ℂ) else 0) (probs : ℕ → List ℕ → ℝ) (hprobs : ∀ c, ∀ n : Fin N → ℕ, (∀ k, n k < c) → probs c (List.ofFn n) = (ρ n n).re) :
    ∃ r, passiveTransformation s N N T hbar = .ok r ∧ ∃ q : ℕ → List ℕ → ℝ, (∀ c, updateLoss N c etas (probs c) = .ok (q c)) ∧ ∀ ρ', IsFockMatrix N r.mu r.cov hbar ρ' →
      (∀ c, ∀ j : Fin N → ℕ, (∀ k, j k < c) → 0 ≤ q c (List.ofFn j) ∧ q c (List.ofFn j) ≤ (ρ' j j).re) ∧
      ∀ j : Fin N → ℕ, Filter.Tendsto (fun c => q c (List.ofFn j)) Filter.atTop (nhds (ρ' j j).re) := by
  have heta : ∀ k : Fin N, 0 ≤ etas.getD k 0 ∧ etas.getD k 0 ≤ 1 := by
    intro k
    rw [List.getD_eq_getElem _ _ (by omega)]
    exact h _ (List.getElem_mem _)
  obtain ⟨r, hr, -, hp⟩ := passive_loss_photons hh s hs hph (fun k => etas.getD k 0) (fun k => (heta k).1) (fun k => (heta k).2) ρ hρ T hT
  have hq := fun c => updateLoss_correct N c hN hN9 etas hlen h (probs c)
  choose q hq1 hq2 using hq
  refine ⟨r, hr, q, hq1, fun ρ' hρ' => ?_⟩
  have hp0 : ∀ i, 0 ≤ (ρ i i).re := fun i => by
    obtain ⟨r, hr, e⟩ := fockMatrix_diag hh hph hρ i
    rw [e]; exact hr
  have hterm : ∀ i j : Fin N → ℕ, 0 ≤ (∏ k : Fin N, survive (etas.getD k 0) (i k) (j k)) * (ρ i i).re := fun i j =>
    mul_nonneg (Finset.prod_nonneg fun k _ => survive_nonneg (heta k).1 (heta k).2 _ _) (hp0 i)
  have hval : ∀ c, ∀ j : Fin N → ℕ, (∀ k, j k < c) → q c (List.ofFn j) = ∑ i ∈ Fintype.piFinset fun _ : Fin N => Finset.range c, (∏ k : Fin N, survive (etas.getD k 0) (i k) (j k)) * (ρ i i).re := by
    intro c j hj
    have e := congrFun (hq2 c) fun k => ⟨j k, hj k⟩
    rw [asFun, lossy] at e
    refine e.trans (Finset.sum_bij' (fun (i : Fin N → Fin c) _ => fun k => (i k : ℕ)) (fun i hi => fun k => ⟨i k, Finset.mem_range.mp (Fintype.mem_piFinset.mp hi k)⟩)
      (fun i _ => Fintype.mem_piFinset.mpr fun k => Finset.mem_range.mpr (i k).2) (fun _ _ => Finset.mem_univ _) (fun _ _ => rfl) (fun _ _ => rfl) fun i _ => ?_)
    rw [asFun, hprobs c (fun k => (i k : ℕ)) fun k => (i k).2]
  refine ⟨fun c j hj => ?_, fun j => ?_⟩
  · rw [hval c j hj]
    exact ⟨Finset.sum_nonneg fun i _ => hterm i j, sum_le_hasSum _ (fun i _ => hterm i j) (hp ρ' hρ' j)⟩
  · have hlim : Filter.Tendsto (fun c : ℕ => Fintype.piFinset fun _ : Fin N => Finset.range c) Filter.atTop Filter.atTop := by
      refine Filter.tendsto_atTop_finset_of_monotone (fun a b hab => Fintype.piFinset_subset _ _ fun _ => Finset.range_mono hab) fun i => ?_
      obtain ⟨c, hc⟩ : ∃ c, ∀ k, i k < c := ⟨Finset.univ.sup i + 1, fun k => Nat.lt_succ_of_le (Finset.le_sup (Finset.mem_univ k))⟩
      exact ⟨c, Fintype.mem_piFinset.mpr fun k => Finset.mem_range.mpr (hc k)⟩
    have hsum := (hp ρ' hρ' j).comp hlim
    refine hsum.congr' ?_
    obtain ⟨c₀, hc⟩ : ∃ c, ∀ k, j k < c := ⟨Finset.univ.sup j + 1, fun k => Nat.lt_succ_of_le (Finset.le_sup (Finset.mem_univ k))⟩
    filter_upwards [Filter.eventually_ge_atTop c₀] with c hcc
    exact (hval c j fun k => (hc k).trans_le hcc).symm

/-- the hypotheses are met: two modes in an entangled state, transmissions 1/2 and 1/3 -/
example : ∃ (ρ : (Fin 2 → ℕ) → (Fin 2 → ℕ) → ℂ) (T : ℕ → ℕ → ℂ) (probs : ℕ → List ℕ → ℝ), IsFockMatrix 2 (fun _ => 1) tmsExample 2 ρ ∧
    (∀ i j : Fin 2, T i j = if i = j then (Real.sqrt (([1 / 2, 1 / 3] : List ℝ).getD i 0) : ℂ) else 0) ∧ (∀ c, ∀ n : Fin 2 → ℕ, (∀ k, n k < c) → probs c (List.ofFn n) = (ρ n n).re) ∧
    Physical (phase 2 2 tmsExample) 2 := by
  have hph := (physical_iff_spectrum _ 2 (by norm_num) _ tmsExample_spec).mpr fun _ => by norm_num
  obtain ⟨ρ, _, _, -, hρ, -⟩ := fock_gram (N := 2) (fun _ => 1) (by norm_num) hph
  exact ⟨ρ, fun i j => if i = j then (Real.sqrt (([1 / 2, 1 / 3] : List ℝ).getD i 0) : ℂ) else 0, fun _ l => (ρ (fun k => l.getD k 0) fun k => l.getD k 0).re, hρ, fun i j => by simp [Fin.val_inj],
    fun c n _ => by
      have e : (fun k : Fin 2 => (List.ofFn n).getD k 0) = n := by funext k; fin_cases k <;> simp
      beta_reduce
      rw [e], hph⟩

end Verif.Props
