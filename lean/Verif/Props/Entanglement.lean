/-
C52, C65-C67: partitions, the von Neumann entropy, the entanglement entropy and the logarithmic negativity.
-/
import Verif.Model.Entanglement
import Verif.Spec.Entropy
import Verif.Props.WilliamsonThm
import Verif.Props.Physical
import Verif.Props.Threshold

set_option linter.unusedSimpArgs false
set_option linter.unusedSectionVars false

namespace Verif.Props
open Verif Verif.Model Verif.Model.Symp Verif.Model.Checks Verif.Model.Dec Verif.Model.Ent Verif.Spec Verif.Lemmas.Symp
open Matrix
open scoped ComplexOrder

/-! ### C52: get_partition -/

/-- C52: `get_partition` returns exactly: the single mode, the given list (all modes existing), or `range(split)` (empty for a negative `split`). -/
theorem getPartition_ok_iff (a : ModesArg) (s : Option PyInt) (M : ℕ) (l : List ℕ) :
    getPartition a s M = .ok l ↔
      (∃ m : ℕ, a = .int m ∧ m < M ∧ l = [m]) ∨ (a = .seq (l.map fun m : ℕ => PyInt.int (m : ℤ)) ∧ ∀ m ∈ l, m < M) ∨
      (a = .none ∧ ∃ z : ℤ, s = some (.int z) ∧ z < M ∧ l = List.range z.toNat) := by
  unfold getPartition
  cases a with
  | other => simp
  | int z =>
    simp only [badMode]
    by_cases h : z < 0 ∨ z > (M : ℤ) - 1
    · simp only [h, decide_true, if_true]
      constructor
      · intro h'; cases h'
      · rintro (⟨m, hm, h2, -⟩ | ⟨h2, -⟩ | ⟨h2, -⟩)
        · injection hm with hm; omega
        · cases h2
        · cases h2
    · simp only [h, decide_false]
      constructor
      · intro h'
        injection h' with h'
        refine Or.inl ⟨z.toNat, ?_, by omega, h'.symm⟩
        congr 1; omega
      · rintro (⟨m, hm, h2, rfl⟩ | ⟨h2, -⟩ | ⟨h2, -⟩)
        · injection hm with hm; subst hm; simp
        · cases h2
        · cases h2
  | seq items =>
    by_cases h : items.any (badMode M) = true
    · simp only [h, if_true]
      constructor
      · intro h'; cases h'
      · rintro (⟨m, hm, -⟩ | ⟨h2, h3⟩ | ⟨h2, -⟩)
        · cases hm
        · exfalso
          injection h2 with h2
          subst h2
          obtain ⟨x, hx, hb⟩ := List.any_eq_true.mp h
          obtain ⟨m, hm, rfl⟩ := List.mem_map.mp hx
          have := h3 m hm
          simp only [badMode, decide_eq_true_eq] at hb
          omega
        · cases h2
    · have h' : ∀ x ∈ items, badMode M x = false := by
        intro x hx
        by_contra hb
        exact h (List.any_eq_true.mpr ⟨x, hx, by simpa using hb⟩)
      have hx : ∀ x ∈ items, x = .int (x.toNat : ℕ) ∧ x.toNat < M := by
        intro x hx
        have := h' x hx
        cases x with
        | other => simp [badMode] at this
        | int z =>
          simp only [badMode, decide_eq_false_iff_not] at this
          simp only [PyInt.toNat]
          refine ⟨?_, by omega⟩
          congr 1; omega
      simp only [h]
      constructor
      · intro h2
        injection h2 with h2
        subst h2
        refine Or.inr (Or.inl ⟨?_, ?_⟩)
        · congr 1
          rw [List.map_map]
          symm
          conv_rhs => rw [← List.map_id items]
          exact List.map_congr_left fun x hxm => (hx x hxm).1.symm
        · intro m hm
          obtain ⟨x, hxm, rfl⟩ := List.mem_map.mp hm
          exact (hx x hxm).2
      · rintro (⟨m, hm, -⟩ | ⟨h2, h3⟩ | ⟨h2, -⟩)
        · cases hm
        · injection h2 with h2
          subst h2
          simp [List.map_map, Function.comp_def, PyInt.toNat]
        · cases h2
  | none =>
    cases s with
    | none => simp
    | some x =>
      cases x with
      | other => simp
      | int z =>
        by_cases h : z > (M : ℤ) - 1
        · simp only [h, if_true]
          constructor
          · intro h'; cases h'
          · rintro (⟨m, hm, -⟩ | ⟨h2, -⟩ | ⟨-, y, hy, h3, -⟩)
            · cases hm
            · cases h2
            · injection hy with hy; injection hy with hy; omega
        · simp only [h, if_false]
          constructor
          · intro h'
            injection h' with h'
            exact Or.inr (Or.inr ⟨trivial, z, rfl, by omega, h'.symm⟩)
          · rintro (⟨m, hm, -⟩ | ⟨h2, -⟩ | ⟨-, y, hy, h3, rfl⟩)
            · cases hm
            · cases h2
            · injection hy with hy; injection hy with hy; rw [hy]

/-- C52: the modes that `get_partition` returns exist. -/
theorem getPartition_range (a : ModesArg) (s : Option PyInt) (M : ℕ) (l : List ℕ) (h : getPartition a s M = .ok l) : ∀ m ∈ l, m < M := by
  rcases (getPartition_ok_iff a s M l).mp h with ⟨m, -, hm, rfl⟩ | ⟨-, h⟩ | ⟨-, z, -, hz, rfl⟩
  · intro x hx; rw [List.mem_singleton] at hx; omega
  · exact h
  · intro x hx; rw [List.mem_range] at hx; omega

/-- C52: `get_partition` raises `TypeError` exactly if `modes_A` has an unsupported type or neither argument is given, and `ValueError` in all other
cases in which it does not return. -/
theorem getPartition_error (a : ModesArg) (s : Option PyInt) (M : ℕ) (e : PyErr) (h : getPartition a s M = .error e) :
    (e = .typeError ∧ (a = .other ∨ (a = .none ∧ s = none))) ∨ (e = .valueError ∧ ¬ (a = .other ∨ (a = .none ∧ s = none))) := by
  unfold getPartition at h
  cases a with
  | other => injection h with h; subst h; simp
  | int z => simp only at h; split_ifs at h; injection h with h; subst h; simp
  | seq l => simp only at h; split_ifs at h; injection h with h; subst h; simp
  | none =>
    cases s with
    | none => injection h with h; subst h; simp
    | some x =>
      cases x with
      | other => injection h with h; subst h; simp
      | int z => simp only at h; split_ifs at h; injection h with h; subst h; simp

/-- non-vacuous: three calls -/
example : getPartition (.seq [.int 2, .int 0]) none 3 = .ok [2, 0] ∧ getPartition .none (some (.int 2)) 3 = .ok [0, 1] ∧
    getPartition (.int 3) none 3 = .error .valueError := by decide

/-! ### symplectic spectra -/

variable {N : ℕ}

/-- a physical covariance matrix is positive definite -/
theorem physical_posDef (V : Matrix (Fin N ⊕ Fin N) (Fin N ⊕ Fin N) ℝ) (hbar : ℝ) (hh : 0 < hbar) (h : Physical V hbar) : V.PosDef := by
  have hps := physical_posSemidef V hbar h
  refine hps.posDef_iff_isUnit.mpr ?_
  rw [isUnit_iff_isUnit_det, isUnit_iff_ne_zero]
  intro hdet
  obtain ⟨x, hx0, hx⟩ := exists_mulVec_eq_zero_iff.mpr hdet
  have hA := h.2
  set A := V.map Complex.ofReal + (Complex.I * (hbar / 2 : ℝ)) • omega N with hAdef
  let z : Fin N ⊕ Fin N → ℂ := fun p => (x p : ℂ)
  have hVz : (V.map Complex.ofReal) *ᵥ z = 0 := by
    funext p
    have := congrFun hx p
    simp only [mulVec, dotProduct, z, map_apply, Pi.zero_apply] at this ⊢
    rw [← Complex.ofReal_zero, ← this]; push_cast; rfl
  have hzz : z ⬝ᵥ (omega N *ᵥ z) = 0 := by
    have ht : (omega N)ᵀ = -omega N := by
      unfold omega; rw [transpose_neg, J_transpose]
    have : z ⬝ᵥ (omega N *ᵥ z) = -(z ⬝ᵥ (omega N *ᵥ z)) := by
      conv_lhs => rw [dotProduct_mulVec, ← mulVec_transpose, ht, neg_mulVec, neg_dotProduct, dotProduct_comm]
    exact self_eq_neg.mp this
  have hstar : star z = z := by funext p; exact Complex.conj_ofReal _
  have h0 : star z ⬝ᵥ (A *ᵥ z) = 0 := by
    rw [hAdef, add_mulVec, hVz, zero_add, hstar, smul_mulVec, dotProduct_smul, hzz, smul_zero]
  have hAz := (hA.dotProduct_mulVec_zero_iff z).mp h0
  rw [hAdef, add_mulVec, hVz, zero_add, smul_mulVec] at hAz
  have hne : (Complex.I * (hbar / 2 : ℝ)) ≠ 0 := by
    refine mul_ne_zero Complex.I_ne_zero ?_
    exact_mod_cast (by positivity : hbar / 2 ≠ 0)
  have hoz : omega N *ᵥ z = 0 := (smul_eq_zero.mp hAz).resolve_left hne
  have hz : z = 0 := by
    have := congrArg (fun v => omega N *ᵥ v) hoz
    simp only [mulVec_mulVec, omega_sq, mulVec_zero, neg_mulVec, one_mulVec] at this
    exact neg_eq_zero.mp this
  apply hx0
  funext p
  have := congrFun hz p
  simp only [z, Pi.zero_apply] at this ⊢
  exact_mod_cast this

theorem sympSpectrum_exists (V : Matrix (Fin N ⊕ Fin N) (Fin N ⊕ Fin N) ℝ) (hV : V.PosDef) : ∃ ν, SympSpectrum V ν := by
  obtain ⟨S, hS, d, hd, h⟩ := williamson_theorem N V hV
  exact ⟨d, hd, S, hS, h⟩

/-- the symplectic eigenvalues are determined by the matrix, up to their order -/
theorem sympSpectrum_unique (V : Matrix (Fin N ⊕ Fin N) (Fin N ⊕ Fin N) ℝ) (ν ν' : Fin N → ℝ) (h : SympSpectrum V ν) (h' : SympSpectrum V ν') :
    (List.ofFn ν).Perm (List.ofFn ν') := by
  obtain ⟨eigvals, he⟩ := eigvals_exists
  obtain ⟨A, rfl⟩ := exists_phase N V
  obtain ⟨hp, S, hS, e⟩ := h
  obtain ⟨hp', S', hS', e'⟩ := h'
  have h1 := symplecticEigenvals_correct eigvals he N A S ν hS hp e
  have h2 := symplecticEigenvals_correct eigvals he N A S' ν' hS' hp' e'
  have := (h1.symm.trans h2).map Complex.re
  simpa [List.map_map, Function.comp_def] using this

theorem sympSpectrum_smul (V : Matrix (Fin N ⊕ Fin N) (Fin N ⊕ Fin N) ℝ) (ν : Fin N → ℝ) (c : ℝ) (hc : 0 < c) (h : SympSpectrum V ν) :
    SympSpectrum (c • V) fun i => c * ν i := by
  obtain ⟨hp, S, hS, e⟩ := h
  refine ⟨fun i => mul_pos hc (hp i), S, hS, ?_⟩
  rw [e]
  have : diagonal (Sum.elim (fun i => c * ν i) fun i => c * ν i) = c • diagonal (Sum.elim ν ν) := by
    rw [← diagonal_smul]
    congr 1
    funext p; rcases p with p | p <;> rfl
  rw [this, Matrix.mul_smul, Matrix.smul_mul]

theorem sympSpectrum_congr (V S : Matrix (Fin N ⊕ Fin N) (Fin N ⊕ Fin N) ℝ) (hS : S ∈ symplecticGroup (Fin N) ℝ) (ν : Fin N → ℝ) (h : SympSpectrum V ν) :
    SympSpectrum (S * V * Sᵀ) ν := by
  obtain ⟨hp, T, hT, e⟩ := h
  refine ⟨hp, S * T, mul_mem hS hT, ?_⟩
  rw [e, transpose_mul]
  simp only [Matrix.mul_assoc]

/-- the uncertainty relation in terms of the symplectic eigenvalues: all of them are at least `ħ/2` -/
theorem physical_iff_spectrum (V : Matrix (Fin N ⊕ Fin N) (Fin N ⊕ Fin N) ℝ) (hbar : ℝ) (hh : 0 ≤ hbar) (ν : Fin N → ℝ) (h : SympSpectrum V ν) :
    Physical V hbar ↔ ∀ i, hbar / 2 ≤ ν i := by
  obtain ⟨hp, S, hS, e⟩ := h
  constructor
  · intro hV i
    have hSi : S⁻¹ ∈ symplecticGroup (Fin N) ℝ := by
      have h1 := (⟨S, hS⟩ : symplecticGroup (Fin N) ℝ)⁻¹.2
      have h2 := SymplecticGroup.coe_inv' ⟨S, hS⟩
      rwa [h2] at h1
    have hdet : IsUnit S.det := SymplecticGroup.symplectic_det hS
    have hD := physical_symplectic V S⁻¹ hbar hV hSi
    have : S⁻¹ * V * S⁻¹ᵀ = diagonal (Sum.elim ν ν) := by
      rw [e, transpose_nonsing_inv]
      have hdt : IsUnit Sᵀ.det := by rw [det_transpose]; exact hdet
      calc S⁻¹ * (S * diagonal (Sum.elim ν ν) * Sᵀ) * Sᵀ⁻¹ = (S⁻¹ * S) * diagonal (Sum.elim ν ν) * (Sᵀ * Sᵀ⁻¹) := by simp only [Matrix.mul_assoc]
        _ = _ := by rw [nonsing_inv_mul S hdet, mul_nonsing_inv _ hdt, Matrix.one_mul, Matrix.mul_one]
    rw [this] at hD
    let z : Fin N ⊕ Fin N → ℂ := Sum.elim (fun k => if k = i then 1 else 0) fun k => if k = i then Complex.I else 0
    have h1 := hD.2.dotProduct_mulVec_nonneg z
    have h2 : star z ⬝ᵥ (((diagonal (Sum.elim ν ν)).map Complex.ofReal + (Complex.I * (hbar / 2 : ℝ)) • omega N) *ᵥ z) = ((2 * ν i - hbar : ℝ) : ℂ) := by
      have hd : (diagonal (Sum.elim ν ν)).map Complex.ofReal = diagonal (fun p => ((Sum.elim ν ν p : ℝ) : ℂ)) := by
        rw [diagonal_map Complex.ofReal_zero]
      have ho : omega N *ᵥ z = Sum.elim (fun k => if k = i then Complex.I else 0) (fun k => if k = i then -1 else 0) := by
        have : omega N = fromBlocks 0 1 (-1) 0 := by unfold omega J; rw [fromBlocks_neg]; simp
        rw [this]
        simp only [z]
        rw [fromBlocks_mulVec]
        funext p
        rcases p with p | p
        · simp
        · simp only [Function.comp_def, Sum.elim_inr, Sum.elim_inl, zero_mulVec, add_zero]
          rw [neg_mulVec, one_mulVec]
          simp only [Pi.neg_apply]
          split_ifs <;> simp
      rw [add_mulVec, smul_mulVec, ho, hd]
      simp only [dotProduct, Fintype.sum_sum_type, Pi.add_apply, mulVec_diagonal, Pi.smul_apply, smul_eq_mul, z, Sum.elim_inl, Sum.elim_inr, Pi.star_apply]
      simp only [apply_ite star, star_one, star_zero, ite_mul, zero_mul, mul_ite, mul_one, mul_zero, one_mul]
      rw [Finset.sum_eq_single i, Finset.sum_eq_single i]
      · simp only [if_true]
        rw [show star Complex.I = -Complex.I from Complex.conj_I]
        push_cast
        linear_combination (-(ν i : ℂ) + (hbar : ℂ)) * Complex.I_mul_I
      · intro b _ hb; simp only [hb, if_false]
      · intro hb; exact absurd (Finset.mem_univ i) hb
      · intro b _ hb; simp only [hb, if_false]
      · intro hb; exact absurd (Finset.mem_univ i) hb
    rw [h2] at h1
    have : (0 : ℝ) ≤ 2 * ν i - hbar := by exact_mod_cast h1
    linarith
  · intro hν
    rw [e]
    refine physical_symplectic _ S hbar ⟨?_, ?_⟩ hS
    · exact diagonal_transpose _
    · have e1 : (diagonal (Sum.elim ν ν)).map Complex.ofReal + (Complex.I * (hbar / 2 : ℝ)) • omega N =
          ((hbar / 2 : ℝ) : ℂ) • (wmat N * (wmat N)ᴴ) + diagonal (fun p => ((Sum.elim ν ν p - hbar / 2 : ℝ) : ℂ)) := by
        rw [wmat_mul]
        ext p q
        simp only [Matrix.add_apply, Matrix.smul_apply, map_apply, smul_eq_mul, diagonal_apply, Matrix.one_apply]
        split_ifs <;> push_cast <;> ring
      rw [e1]
      refine PosSemidef.add ?_ ?_
      · exact (posSemidef_self_mul_conjTranspose _).smul (by exact_mod_cast (by linarith : 0 ≤ hbar / 2))
      · refine posSemidef_diagonal_iff.mpr fun p => ?_
        rcases p with p | p <;> exact_mod_cast sub_nonneg.mpr (hν p)

/-! ### C65: the von Neumann entropy -/

theorem thermalEntropy_zero : thermalEntropy 0 = 0 := by unfold thermalEntropy; simp

theorem thermalEntropy_pos (x : ℝ) (h : 0 < x) : 0 < thermalEntropy x := by
  unfold thermalEntropy
  have h1 : 0 < Real.log (x + 1) := Real.log_pos (by linarith)
  have h2 : Real.log x ≤ Real.log (x + 1) := Real.log_le_log h (by linarith)
  nlinarith

theorem thermalEntropy_nonneg (x : ℝ) (h : 0 ≤ x) : 0 ≤ thermalEntropy x := by
  rcases h.eq_or_lt with rfl | h
  · rw [thermalEntropy_zero]
  · exact (thermalEntropy_pos x h).le

theorem phase_scale (cov : RArr) (hbar : ℝ) : phase N N (fun i j => cov i j / (hbar / 2)) = (2 / hbar) • phase N N cov := by
  ext p q
  simp only [phase, of_apply, Matrix.smul_apply, smul_eq_mul]
  by_cases h : hbar = 0
  · subst h; simp
  · field_simp

theorem foldl_cond_sum (g : ℝ → ℝ) (P : ℝ → Bool) (l : List ℝ) (z : ℝ) :
    l.foldl (fun S nu => if ¬ P nu = true then S + g nu else S) z = z + (l.map fun nu => if P nu = true then 0 else g nu).sum := by
  induction l generalizing z with
  | nil => simp
  | cons a l ih =>
    rw [List.foldl_cons, ih, List.map_cons, List.sum_cons]
    by_cases h : P a = true
    · simp [h]
    · simp [h]; ring

/-- the sum over the returned symplectic eigenvalues -/
theorem symplecticEigenvals_sum (eigvals : ℕ → RArr → ℕ → ℂ) (he : EigvalsContract eigvals) (V : RArr) (ν : Fin N → ℝ) (h : SympSpectrum (phase N N V) ν) :
    ((symplecticEigenvals eigvals (2 * N) V).map Complex.re).Perm (List.ofFn ν) := by
  obtain ⟨hp, S, hS, e⟩ := h
  have h1 := (symplecticEigenvals_correct eigvals he N V S ν hS hp e).map Complex.re
  simpa [List.map_map, Function.comp_def] using h1

/-- C65: `vonneumann_entropy` of a physical covariance matrix is the sum of the entropies of thermal states with mean photon numbers `(ν - 1) / 2`,
where `ν` are the symplectic eigenvalues in units of `ħ/2`. -/
theorem vonneumannEntropy_correct (eigvals : ℕ → RArr → ℕ → ℂ) (he : EigvalsContract eigvals) (close : ℝ → ℝ → Bool)
    (hc : ∀ x y, close x y = true ↔ x = y) (cov : RArr) (hbar : ℝ) (hV : Physical (phase N N cov) hbar)
    (ν : Fin N → ℝ) (hν : SympSpectrum ((2 / hbar) • phase N N cov) ν) :
    vonneumannEntropy eigvals close 0 (2 * N) (2 * N) cov hbar = .ok (∑ i, thermalEntropy ((ν i - 1) / 2)) := by
  unfold vonneumannEntropy
  have hval := (isValidCov_exact close hc (2 * N) (2 * N) cov hbar).mpr ⟨rfl, N, rfl, hV⟩
  simp only [hval, not_true, if_false]
  rw [← phase_scale] at hν
  have hperm := symplecticEigenvals_sum eigvals he _ ν hν
  rw [foldl_cond_sum (fun nu => (nu + 1) / 2 * Real.log ((nu + 1) / 2) - (nu - 1) / 2 * Real.log ((nu - 1) / 2)) (fun nu => close nu 1), zero_add]
  congr 1
  rw [(hperm.map _).sum_eq, List.map_ofFn, List.sum_ofFn]
  refine Finset.sum_congr rfl fun i _ => ?_
  simp only [Function.comp_def]
  by_cases h1 : ν i = 1
  · rw [if_pos ((hc _ _).mpr h1), h1]; simp [thermalEntropy_zero]
  · rw [if_neg (fun h => h1 ((hc _ _).mp h))]
    unfold thermalEntropy
    rw [show (ν i - 1) / 2 + 1 = (ν i + 1) / 2 by ring]

/-- C65: `vonneumann_entropy` raises `ValueError` exactly if the matrix is not a physical covariance matrix. -/
theorem vonneumannEntropy_error (eigvals : ℕ → RArr → ℕ → ℂ) (close : ℝ → ℝ → Bool) (hc : ∀ x y, close x y = true ↔ x = y) (n m : ℕ) (cov : RArr) (hbar : ℝ) :
    vonneumannEntropy eigvals close 0 n m cov hbar = .error .valueError ↔ ¬ (n = m ∧ ∃ N, n = 2 * N ∧ Physical (phase N N cov) hbar) := by
  rw [← isValidCov_exact close hc]
  unfold vonneumannEntropy
  by_cases h : isValidCov close n m cov hbar 0 = true
  · simp [h]
  · simp [h]

theorem physical_scale (V : Matrix (Fin N ⊕ Fin N) (Fin N ⊕ Fin N) ℝ) (hbar : ℝ) (hh : 0 < hbar) (hV : Physical V hbar) : Physical ((2 / hbar) • V) 2 := by
  refine ⟨?_, ?_⟩
  · unfold Matrix.IsSymm; rw [transpose_smul, hV.1.eq]
  · have hpos : (0 : ℂ) ≤ ((2 / hbar : ℝ) : ℂ) := Complex.zero_le_real.mpr (by positivity)
    have := hV.2.smul hpos
    convert this using 1
    have hne : (hbar : ℂ) ≠ 0 := by exact_mod_cast hh.ne'
    ext p q
    simp only [Matrix.add_apply, map_apply, Matrix.smul_apply, smul_eq_mul]
    push_cast
    field_simp

theorem sympSpectrum_physical (V : Matrix (Fin N ⊕ Fin N) (Fin N ⊕ Fin N) ℝ) (hbar : ℝ) (hh : 0 < hbar) (hV : Physical V hbar) :
    ∃ ν, SympSpectrum ((2 / hbar) • V) ν ∧ ∀ i, 1 ≤ ν i := by
  have h2 := physical_scale V hbar hh hV
  obtain ⟨ν, hν⟩ := sympSpectrum_exists _ (physical_posDef _ 2 (by norm_num) h2)
  refine ⟨ν, hν, fun i => ?_⟩
  have := (physical_iff_spectrum _ 2 (by norm_num) ν hν).mp h2 i
  linarith

/-- C65: the entropy is a nonnegative number, and it is zero exactly for the pure states (`det (2 V / ħ) = 1`). -/
theorem vonneumannEntropy_nonneg (eigvals : ℕ → RArr → ℕ → ℂ) (he : EigvalsContract eigvals) (close : ℝ → ℝ → Bool)
    (hc : ∀ x y, close x y = true ↔ x = y) (cov : RArr) (hbar : ℝ) (hh : 0 < hbar) (hV : Physical (phase N N cov) hbar) :
    ∃ s, vonneumannEntropy eigvals close 0 (2 * N) (2 * N) cov hbar = .ok s ∧ 0 ≤ s ∧ (s = 0 ↔ ((2 / hbar) • phase N N cov).det = 1) := by
  obtain ⟨ν, hν, h1⟩ := sympSpectrum_physical _ hbar hh hV
  have hnn : ∀ i, 0 ≤ thermalEntropy ((ν i - 1) / 2) := fun i => thermalEntropy_nonneg _ (by linarith [h1 i])
  refine ⟨_, vonneumannEntropy_correct eigvals he close hc cov hbar hV ν hν, Finset.sum_nonneg fun i _ => hnn i, ?_⟩
  rw [Finset.sum_eq_zero_iff_of_nonneg fun i _ => hnn i]
  have h2 : (∀ i ∈ Finset.univ, thermalEntropy ((ν i - 1) / 2) = 0) ↔ ∀ i, ν i = 1 := by
    constructor
    · intro h i
      by_contra hne
      have : 1 < ν i := lt_of_le_of_ne (h1 i) (Ne.symm hne)
      have := thermalEntropy_pos ((ν i - 1) / 2) (by linarith)
      rw [h i (Finset.mem_univ i)] at this
      exact lt_irrefl _ this
    · intro h i _
      rw [h i]; simp [thermalEntropy_zero]
  rw [h2]
  obtain ⟨hp, S, hS, e⟩ := hν
  have hdS : S.det * S.det = 1 := by
    have := congrArg det (SymplecticGroup.mem_iff.mp hS)
    rw [det_mul, det_mul, det_transpose] at this
    have hJ : (J (Fin N) ℝ).det ≠ 0 := (isUnit_det_J (Fin N) ℝ).ne_zero
    have h3 : (J (Fin N) ℝ).det * (S.det * S.det) = (J (Fin N) ℝ).det * 1 := by linear_combination this
    exact mul_left_cancel₀ hJ h3
  rw [e, det_mul, det_mul, det_transpose, det_diagonal, Fintype.prod_sum_type]
  simp only [Sum.elim_inl, Sum.elim_inr]
  have h4 : S.det * ((∏ x, ν x) * ∏ x, ν x) * S.det = (∏ x, ν x) * ∏ x, ν x := by linear_combination ((∏ x, ν x) * ∏ x, ν x) * hdS
  rw [h4]
  constructor
  · intro h; simp [h]
  · intro h
    have hge : 1 ≤ ∏ x, ν x := by
      have : ∏ x : Fin N, (1 : ℝ) ≤ ∏ x, ν x := Finset.prod_le_prod (fun _ _ => zero_le_one) fun i _ => h1 i
      simpa using this
    have hone : ∏ x, ν x = 1 := by nlinarith
    intro i
    refine le_antisymm ?_ (h1 i)
    rw [← hone, ← Finset.mul_prod_erase _ _ (Finset.mem_univ i)]
    have : 1 ≤ ∏ x ∈ Finset.univ.erase i, ν x := by
      have : ∏ x ∈ Finset.univ.erase i, (1 : ℝ) ≤ ∏ x ∈ Finset.univ.erase i, ν x := Finset.prod_le_prod (fun _ _ => zero_le_one) fun i _ => h1 i
      simpa using this
    nlinarith [h1 i]

/-- C65: the entropy does not change under Gaussian unitaries. -/
theorem vonneumannEntropy_invariant (eigvals : ℕ → RArr → ℕ → ℂ) (he : EigvalsContract eigvals) (close : ℝ → ℝ → Bool)
    (hc : ∀ x y, close x y = true ↔ x = y) (cov cov' : RArr) (S : Matrix (Fin N ⊕ Fin N) (Fin N ⊕ Fin N) ℝ) (hS : S ∈ symplecticGroup (Fin N) ℝ)
    (hcov : phase N N cov' = S * phase N N cov * Sᵀ) (hbar : ℝ) (hh : 0 < hbar) (hV : Physical (phase N N cov) hbar) :
    vonneumannEntropy eigvals close 0 (2 * N) (2 * N) cov' hbar = vonneumannEntropy eigvals close 0 (2 * N) (2 * N) cov hbar := by
  obtain ⟨ν, hν, -⟩ := sympSpectrum_physical _ hbar hh hV
  rw [vonneumannEntropy_correct eigvals he close hc cov hbar hV ν hν]
  refine vonneumannEntropy_correct eigvals he close hc cov' hbar (hcov ▸ physical_symplectic _ S hbar hV hS) ν ?_
  have := sympSpectrum_congr _ S hS ν hν
  rwa [hcov, ← Matrix.smul_mul, ← Matrix.mul_smul]

/-- non-vacuous: a thermal state with one mean photon, `ν = 3` -/
example (eigvals : ℕ → RArr → ℕ → ℂ) (he : EigvalsContract eigvals) (close : ℝ → ℝ → Bool) (hc : ∀ x y, close x y = true ↔ x = y) :
    vonneumannEntropy eigvals close 0 (2 * 1) (2 * 1) (fun i j => if i = j then 3 else 0) 2 = .ok (2 * Real.log 2) := by
  have hph : phase 1 1 (fun i j => if i = j then (3 : ℝ) else 0) = diagonal (Sum.elim (fun _ => 3) fun _ => 3) := by
    ext p q
    rcases p with p | p <;> rcases q with q | q <;> fin_cases p <;> fin_cases q <;> simp [phase, quad, diagonal]
  have hs : SympSpectrum (phase 1 1 fun i j => if i = j then (3 : ℝ) else 0) fun _ => 3 :=
    ⟨fun _ => by norm_num, 1, one_mem _, by rw [hph]; simp⟩
  rw [vonneumannEntropy_correct eigvals he close hc _ 2 ((physical_iff_spectrum _ 2 (by norm_num) _ hs).mpr fun _ => by norm_num) (fun _ => 3)
    (by simpa using hs)]
  congr 1
  simp [thermalEntropy]; norm_num

/-! ### C66: the entanglement entropy -/

section bipartite
open Polynomial

theorem spectrum_charpoly (V : Matrix (Fin N ⊕ Fin N) (Fin N ⊕ Fin N) ℝ) (α : Fin N → ℝ) (h : SympSpectrum V α) :
    (1 + (J (Fin N) ℝ * V) * (J (Fin N) ℝ * V)).charpoly = ∏ p : Fin N ⊕ Fin N, (X - C (1 - Sum.elim α α p ^ 2)) := by
  obtain ⟨hp, S, hS, e⟩ := h
  set D := diagonal (Sum.elim α α) with hD
  have h1 : Sᵀ * J (Fin N) ℝ * S = J (Fin N) ℝ := SymplecticGroup.mem_iff'.mp hS
  have hdet : IsUnit Sᵀ.det := by rw [det_transpose]; exact SymplecticGroup.symplectic_det hS
  have hDJ : D * J (Fin N) ℝ = J (Fin N) ℝ * D := by
    have hb : D = fromBlocks (diagonal α) 0 0 (diagonal α) := by rw [hD, fromBlocks_diagonal]
    rw [hb]
    unfold J
    rw [fromBlocks_multiply, fromBlocks_multiply]
    simp only [Matrix.mul_zero, Matrix.zero_mul, zero_add, add_zero, Matrix.mul_one, Matrix.one_mul, Matrix.mul_neg, Matrix.neg_mul, neg_zero]
  have h2 : Sᵀ * (1 + (J (Fin N) ℝ * V) * (J (Fin N) ℝ * V)) = (1 - D * D) * Sᵀ := by
    rw [e]
    calc Sᵀ * (1 + (J (Fin N) ℝ * (S * D * Sᵀ)) * (J (Fin N) ℝ * (S * D * Sᵀ)))
        = Sᵀ + (Sᵀ * J (Fin N) ℝ * S) * D * (Sᵀ * J (Fin N) ℝ * S) * D * Sᵀ := by
          rw [Matrix.mul_add, Matrix.mul_one]; simp only [Matrix.mul_assoc]
      _ = Sᵀ + J (Fin N) ℝ * (D * J (Fin N) ℝ) * D * Sᵀ := by rw [h1]; simp only [Matrix.mul_assoc]
      _ = Sᵀ + (J (Fin N) ℝ * J (Fin N) ℝ) * D * D * Sᵀ := by rw [hDJ]; simp only [Matrix.mul_assoc]
      _ = (1 - D * D) * Sᵀ := by rw [J_squared]; rw [Matrix.sub_mul, Matrix.one_mul, neg_mul, neg_mul, neg_mul, Matrix.one_mul, sub_eq_add_neg]
  have h3 : 1 + (J (Fin N) ℝ * V) * (J (Fin N) ℝ * V) = Sᵀ⁻¹ * ((1 - D * D) * Sᵀ) := by
    rw [← h2, ← Matrix.mul_assoc Sᵀ⁻¹, nonsing_inv_mul _ hdet, Matrix.one_mul]
  rw [h3, charpoly_mul_comm, Matrix.mul_assoc, mul_nonsing_inv _ hdet, Matrix.mul_one]
  have h4 : 1 - D * D = diagonal fun p => 1 - Sum.elim α α p ^ 2 := by
    rw [hD, diagonal_mul_diagonal, ← diagonal_one, diagonal_sub]
    congr 1; funext p; rw [sq]
  rw [h4, charpoly_diagonal]

theorem roots_prod_fintype {ι : Type} [Fintype ι] (k : ℕ) (c : ι → ℝ) : (X ^ k * ∏ p, (X - C (c p))).roots = k • {0} + Finset.univ.val.map c := by
  have h1 : ∏ p, (X - C (c p)) = ((Finset.univ.val.map c).map fun a => X - C a).prod := by
    rw [Multiset.map_map]; rfl
  have h2 : ∏ p, (X - C (c p)) ≠ 0 := Finset.prod_ne_zero_iff.mpr fun p _ => X_sub_C_ne_zero _
  rw [roots_mul (mul_ne_zero (pow_ne_zero _ X_ne_zero) h2), roots_X_pow, h1, roots_multiset_prod_X_sub_C]

/-- the two halves of a pure state have the same symplectic eigenvalues, apart from ones -/
theorem bipartite_spectrum {a b : ℕ} (W : Matrix (Fin N ⊕ Fin N) (Fin N ⊕ Fin N) ℝ) (hs : W.IsSymm) (hW : W ∈ symplecticGroup (Fin N) ℝ)
    (e1 : Fin a → Fin N) (e2 : Fin b → Fin N) (hb : Function.Bijective (Sum.elim e1 e2)) (α : Fin a → ℝ) (β : Fin b → ℝ)
    (hα : SympSpectrum (W.submatrix (Sum.map e1 e1) (Sum.map e1 e1)) α) (hβ : SympSpectrum (W.submatrix (Sum.map e2 e2) (Sum.map e2 e2)) β)
    (f : ℝ → ℝ) (hf : f 1 = 0) : ∑ i, f (α i) = ∑ j, f (β j) := by
  set ι1 := Sum.map e1 e1 with hι1
  set ι2 := Sum.map e2 e2 with hι2
  have hi1 : Function.Injective e1 := fun x y h => Sum.inl_injective (hb.1 (by simpa using h))
  have hi2 : Function.Injective e2 := fun x y h => Sum.inr_injective (hb.1 (by simpa using h))
  have hne : ∀ x y, e1 x ≠ e2 y := fun x y h => by
    have := @hb.1 (Sum.inl x) (Sum.inr y) (by simpa using h); cases this
  have hsplit1 : ∀ g : Fin N → ℝ, ∑ x, g x = ∑ x, g (e1 x) + ∑ x, g (e2 x) := by
    intro g
    rw [← (Equiv.ofBijective _ hb).sum_comp, Fintype.sum_sum_type]; rfl
  have hsplit : ∀ (A B : Matrix (Fin N ⊕ Fin N) (Fin N ⊕ Fin N) ℝ) (c d : ℕ) (f : Fin c ⊕ Fin c → Fin N ⊕ Fin N) (g : Fin d ⊕ Fin d → Fin N ⊕ Fin N),
      (A * B).submatrix f g = A.submatrix f ι1 * B.submatrix ι1 g + A.submatrix f ι2 * B.submatrix ι2 g := by
    intro A B c d f g
    ext p q
    simp only [submatrix_apply, Matrix.add_apply, mul_apply, Fintype.sum_sum_type, hsplit1 (fun x => A (f p) (Sum.inl x) * B (Sum.inl x) (g q)),
      hsplit1 (fun x => A (f p) (Sum.inr x) * B (Sum.inr x) (g q)), hι1, hι2, Sum.map_inl, Sum.map_inr]
    ring
  have hJ1 : (J (Fin N) ℝ).submatrix ι1 ι1 = J (Fin a) ℝ := by
    ext p q
    unfold J
    rcases p with p | p <;> rcases q with q | q <;> simp [hι1, Matrix.one_apply, hi1.eq_iff]
  have hJ2 : (J (Fin N) ℝ).submatrix ι2 ι2 = J (Fin b) ℝ := by
    ext p q
    unfold J
    rcases p with p | p <;> rcases q with q | q <;> simp [hι2, Matrix.one_apply, hi2.eq_iff]
  have hJ12 : (J (Fin N) ℝ).submatrix ι1 ι2 = 0 := by
    ext p q
    unfold J
    rcases p with p | p <;> rcases q with q | q <;> simp [hι1, hι2, Matrix.one_apply, hne]
  have hJ21 : (J (Fin N) ℝ).submatrix ι2 ι1 = 0 := by
    ext p q
    unfold J
    rcases p with p | p <;> rcases q with q | q <;> simp [hι1, hι2, Matrix.one_apply, fun x y => (hne x y).symm]
  have hsq : (J (Fin N) ℝ * W) * (J (Fin N) ℝ * W) = -1 := by
    have h1 := SymplecticGroup.mem_iff.mp hW
    rw [hs.eq] at h1
    rw [Matrix.mul_assoc, ← Matrix.mul_assoc W, h1, J_squared]
  set K := J (Fin N) ℝ * W with hK
  have hP : K.submatrix ι1 ι1 = J (Fin a) ℝ * W.submatrix ι1 ι1 := by rw [hK, hsplit, hJ1, hJ12, Matrix.zero_mul, add_zero]
  have hT : K.submatrix ι2 ι2 = J (Fin b) ℝ * W.submatrix ι2 ι2 := by rw [hK, hsplit, hJ2, hJ21, Matrix.zero_mul, zero_add]
  have hinj1 : Function.Injective ι1 := Sum.map_injective.mpr ⟨hi1, hi1⟩
  have hinj2 : Function.Injective ι2 := Sum.map_injective.mpr ⟨hi2, hi2⟩
  have e11 : 1 + (J (Fin a) ℝ * W.submatrix ι1 ι1) * (J (Fin a) ℝ * W.submatrix ι1 ι1) = -K.submatrix ι1 ι2 * K.submatrix ι2 ι1 := by
    have h := congrArg (fun M => M.submatrix ι1 ι1) hsq
    simp only [hsplit, hP, submatrix_neg, Pi.neg_apply, submatrix_one ι1 hinj1] at h
    rw [Matrix.neg_mul, eq_neg_iff_add_eq_zero, add_assoc, h]; simp
  have e22 : 1 + (J (Fin b) ℝ * W.submatrix ι2 ι2) * (J (Fin b) ℝ * W.submatrix ι2 ι2) = K.submatrix ι2 ι1 * (-K.submatrix ι1 ι2) := by
    have h := congrArg (fun M => M.submatrix ι2 ι2) hsq
    simp only [hsplit, hT, submatrix_neg, Pi.neg_apply, submatrix_one ι2 hinj2] at h
    rw [Matrix.mul_neg, eq_neg_iff_add_eq_zero, add_assoc, add_comm (J (Fin b) ℝ * W.submatrix ι2 ι2 * _), h]; simp
  have hchar := charpoly_mul_comm' (-K.submatrix ι1 ι2) (K.submatrix ι2 ι1)
  rw [← e11, ← e22, spectrum_charpoly _ α hα, spectrum_charpoly _ β hβ] at hchar
  have hroots := congrArg Polynomial.roots hchar
  rw [roots_prod_fintype, roots_prod_fintype] at hroots
  have hsum := congrArg (fun m : Multiset ℝ => (m.map fun x => f (Real.sqrt (1 - x))).sum) hroots
  simp only [Multiset.map_add, Multiset.sum_add, Multiset.map_nsmul, Multiset.map_singleton, Multiset.sum_nsmul, Multiset.sum_singleton, sub_zero, Real.sqrt_one,
    hf, smul_zero, zero_add, Multiset.map_map] at hsum
  have fin : ∀ {c : ℕ} (γ : Fin c → ℝ), (∀ i, 0 < γ i) →
      (Finset.univ.val.map ((fun x => f (Real.sqrt (1 - x))) ∘ fun p : Fin c ⊕ Fin c => 1 - Sum.elim γ γ p ^ 2)).sum = 2 * ∑ i, f (γ i) := by
    intro c γ hγ
    change ∑ p : Fin c ⊕ Fin c, f (Real.sqrt (1 - (1 - Sum.elim γ γ p ^ 2))) = _
    rw [Fintype.sum_sum_type]
    simp only [Sum.elim_inl, Sum.elim_inr, sub_sub_cancel, Real.sqrt_sq (hγ _).le]
    ring
  rw [fin α hα.1, fin β hβ.1] at hsum
  linarith

end bipartite

/-- the covariance matrix of some of the modes -/
theorem reduction_submatrix {K : Type} (s r : GState K) (modes : List ℕ) (hb : ∀ m ∈ modes, m < N) (hr : IsReduction N s modes r) :
    let e : Fin modes.length → Fin N := fun a => ⟨modes.getD a 0, hb _ (by rw [List.getD_eq_getElem _ _ a.2]; exact List.getElem_mem _)⟩
    phase modes.length modes.length r.cov = (phase N N s.cov).submatrix (Sum.map e e) (Sum.map e e) := by
  intro e
  ext p q
  rcases p with p | p <;> rcases q with q | q
  · exact hr.xx p p.2 q q.2
  · exact hr.xp p p.2 q q.2
  · exact hr.px p p.2 q q.2
  · exact hr.pp p p.2 q q.2

theorem physical_submatrix {a : ℕ} (V : Matrix (Fin N ⊕ Fin N) (Fin N ⊕ Fin N) ℝ) (hbar : ℝ) (hV : Physical V hbar) (e : Fin a → Fin N) (he : Function.Injective e) :
    Physical (V.submatrix (Sum.map e e) (Sum.map e e)) hbar := by
  refine ⟨?_, ?_⟩
  · unfold Matrix.IsSymm
    rw [transpose_submatrix, hV.1.eq]
  · have h := hV.2.submatrix (Sum.map e e)
    convert h using 1
    have ho : omega a = (omega N).submatrix (Sum.map e e) (Sum.map e e) := by
      unfold omega J
      ext p q
      rcases p with p | p <;> rcases q with q | q <;> simp [Matrix.one_apply, he.eq_iff]
    rw [ho]
    ext p q; simp

/-- C66: the entanglement entropy of a pure state is the von Neumann entropy of the selected modes (some, but not all, of the modes). -/
theorem entanglementEntropy_correct (eigvals : ℕ → RArr → ℕ → ℂ) (he : EigvalsContract eigvals) (close : ℝ → ℝ → Bool)
    (hc : ∀ x y, close x y = true ↔ x = y) (cov : RArr) (hbar : ℝ) (hh : 0 < hbar) (hV : Physical (phase N N cov) hbar)
    (hpure : ((2 / hbar) • phase N N cov).det = 1) (a : ModesArg) (sp : Option PyInt) (l : List ℕ) (hl : getPartition a sp N = .ok l) (hne : l ≠ [])
    (hlen : l.length ≠ N) (hnd : l.Nodup) :
    let e : Fin l.length → Fin N := fun a =>
      ⟨l.getD a 0, getPartition_range _ _ _ _ hl _ (by rw [List.getD_eq_getElem _ _ a.2]; exact List.getElem_mem _)⟩
    ∃ ν : Fin l.length → ℝ, SympSpectrum (((2 / hbar) • phase N N cov).submatrix (Sum.map e e) (Sum.map e e)) ν ∧ (∀ i, 1 ≤ ν i) ∧
      entanglementEntropy eigvals close 0 (2 * N) (2 * N) cov a sp hbar = .ok (∑ i, thermalEntropy ((ν i - 1) / 2)) := by
  intro e
  have hinj : Function.Injective e := by
    intro x y h
    have h' : l.getD x 0 = l.getD y 0 := congrArg Fin.val h
    rw [List.getD_eq_getElem _ _ x.2, List.getD_eq_getElem _ _ y.2] at h'
    exact Fin.ext ((List.Nodup.getElem_inj_iff hnd).mp h')
  have hph := physical_submatrix _ 2 (physical_scale _ hbar hh hV) e hinj
  obtain ⟨ν, hν, h1⟩ := sympSpectrum_physical _ 2 (by norm_num) hph
  rw [show (2 : ℝ) / 2 = 1 by norm_num, one_smul] at hν
  refine ⟨ν, hν, h1, ?_⟩
  unfold entanglementEntropy
  have hval := (isPureCov_exact close hc (2 * N) (2 * N) cov hbar).mpr ⟨rfl, N, rfl, hV, hpure⟩
  have hN : 2 * N / 2 = N := by omega
  simp only [hval, not_true, if_false, hN, hl, bind, Except.bind]
  obtain ⟨r, hr, hred⟩ := reducedGaussian_partial N (⟨2 * N, fun _ => 0, fun i j => cov i j / (hbar / 2)⟩ : GState ℝ) rfl l hne
    (getPartition_range _ _ _ _ hl) (Or.inl hlen)
  rw [hr]
  have hsub := reduction_submatrix _ r l (getPartition_range _ _ _ _ hl) hred
  simp only [phase_scale] at hsub
  simp only [hred.len]
  refine vonneumannEntropy_correct eigvals he close hc r.cov 2 ?_ ν ?_
  · rw [hsub]; exact hph
  · rw [show (2 : ℝ) / 2 = 1 by norm_num, one_smul, hsub]; exact hν

/-- C66: the entanglement entropy of a pure state is the same for the two parts of a bipartition of its modes. -/
theorem entanglementEntropy_symmetric (eigvals : ℕ → RArr → ℕ → ℂ) (he : EigvalsContract eigvals) (close : ℝ → ℝ → Bool)
    (hc : ∀ x y, close x y = true ↔ x = y) (cov : RArr) (hbar : ℝ) (hh : 0 < hbar) (hV : Physical (phase N N cov) hbar)
    (hpure : ((2 / hbar) • phase N N cov).det = 1) (l l' : List ℕ) (hne : l ≠ []) (hne' : l' ≠ []) (hp : (l ++ l').Perm (List.range N)) :
    ∃ s, 0 ≤ s ∧
      entanglementEntropy eigvals close 0 (2 * N) (2 * N) cov (.seq (l.map fun m : ℕ => PyInt.int (m : ℤ))) none hbar = .ok s ∧
      entanglementEntropy eigvals close 0 (2 * N) (2 * N) cov (.seq (l'.map fun m : ℕ => PyInt.int (m : ℤ))) none hbar = .ok s := by
  have hnd : (l ++ l').Nodup := hp.nodup_iff.mpr List.nodup_range
  have hmem : ∀ m, m ∈ l ++ l' ↔ m < N := fun m => by rw [hp.mem_iff, List.mem_range]
  have hlen : l.length + l'.length = N := by simpa using hp.length_eq
  have hl : getPartition (.seq (l.map fun m : ℕ => PyInt.int (m : ℤ))) none N = .ok l :=
    (getPartition_ok_iff _ _ _ _).mpr (Or.inr (Or.inl ⟨rfl, fun m hm => (hmem m).mp (List.mem_append_left _ hm)⟩))
  have hl' : getPartition (.seq (l'.map fun m : ℕ => PyInt.int (m : ℤ))) none N = .ok l' :=
    (getPartition_ok_iff _ _ _ _).mpr (Or.inr (Or.inl ⟨rfl, fun m hm => (hmem m).mp (List.mem_append_right _ hm)⟩))
  have h1 := List.length_pos_iff.mpr hne
  have h2 := List.length_pos_iff.mpr hne'
  have hnda := List.nodup_append'.mp hnd
  obtain ⟨ν, hν, hge, hr⟩ := entanglementEntropy_correct eigvals he close hc cov hbar hh hV hpure _ none l hl hne (by omega) hnda.1
  obtain ⟨ν', hν', -, hr'⟩ := entanglementEntropy_correct eigvals he close hc cov hbar hh hV hpure _ none l' hl' hne' (by omega) hnda.2.1
  refine ⟨_, Finset.sum_nonneg fun i _ => thermalEntropy_nonneg _ (by linarith [hge i]), hr, ?_⟩
  rw [hr']
  congr 1
  have hsymp := (physical_pure_iff _ hbar hh hV).mp hpure
  have hs : ((2 / hbar) • phase N N cov).IsSymm := by unfold Matrix.IsSymm; rw [transpose_smul, hV.1.eq]
  refine (bipartite_spectrum _ hs hsymp _ _ ?_ ν ν' hν hν' (fun x => thermalEntropy ((x - 1) / 2)) (by simp [thermalEntropy_zero])).symm
  rw [Fintype.bijective_iff_injective_and_card]
  refine ⟨?_, by simp [hlen]⟩
  have gg : ∀ (x : List ℕ) (i : Fin x.length), x.getD i 0 = x.get i := fun x i => by rw [List.getD_eq_getElem _ _ i.2]; rfl
  rintro (x | x) (y | y) h
  · have h' := congrArg Fin.val h
    simp only [Sum.elim_inl, gg] at h'
    rw [hnda.1.get_inj_iff.mp h']
  · have h' := congrArg Fin.val h
    simp only [Sum.elim_inl, Sum.elim_inr, gg] at h'
    exact absurd (h' ▸ List.get_mem l' y) (List.disjoint_left.mp hnda.2.2 (List.get_mem l x))
  · have h' := congrArg Fin.val h
    simp only [Sum.elim_inl, Sum.elim_inr, gg] at h'
    exact absurd (h' ▸ List.get_mem l' x) (List.disjoint_left.mp hnda.2.2 (List.get_mem l y))
  · have h' := congrArg Fin.val h
    simp only [Sum.elim_inr, gg] at h'
    rw [hnda.2.1.get_inj_iff.mp h']

/-- the two-mode squeezed vacuum with `cosh r = 5/4` (`ħ = 2`) -/
noncomputable def tmsExample : RArr := fun i j =>
  if i = j then 17 / 8 else if i + j = 1 then 15 / 8 else if i + j = 5 then -15 / 8 else 0

theorem tmsExample_spec : SympSpectrum (phase 2 2 tmsExample) fun _ => 1 := by
  refine ⟨fun _ => one_pos, fromBlocks !![5 / 4, 3 / 4; 3 / 4, 5 / 4] 0 0 !![5 / 4, -3 / 4; -3 / 4, 5 / 4], ?_, ?_⟩
  · rw [SymplecticGroup.mem_iff]
    unfold J
    rw [fromBlocks_transpose, fromBlocks_multiply, fromBlocks_multiply]
    congr 1 <;> ext i j <;> fin_cases i <;> fin_cases j <;> simp [Matrix.mul_apply, Matrix.vecMul, dotProduct, transpose_apply, Fin.sum_univ_two] <;> norm_num
  · have : diagonal (Sum.elim (fun _ : Fin 2 => (1 : ℝ)) fun _ : Fin 2 => 1) = 1 := by
      rw [← diagonal_one]; congr 1; funext p; rcases p with p | p <;> rfl
    rw [this, Matrix.mul_one, fromBlocks_transpose, fromBlocks_multiply]
    ext p q
    rcases p with p | p <;> rcases q with q | q <;> fin_cases p <;> fin_cases q <;>
      simp [phase, quad, tmsExample, Matrix.mul_apply, Matrix.vecMul, dotProduct, transpose_apply, Fin.sum_univ_two] <;> norm_num

/-- non-vacuous: the entanglement entropy of a two-mode squeezed vacuum is the entropy of a thermal state with `sinh² r = 9/16` photons -/
example (eigvals : ℕ → RArr → ℕ → ℂ) (he : EigvalsContract eigvals) (close : ℝ → ℝ → Bool) (hc : ∀ x y, close x y = true ↔ x = y) :
    entanglementEntropy eigvals close 0 (2 * 2) (2 * 2) tmsExample (.int 0) none 2 = .ok (thermalEntropy (9 / 16)) := by
  have hph : Physical (phase 2 2 tmsExample) 2 := (physical_iff_spectrum _ 2 (by norm_num) _ tmsExample_spec).mpr fun _ => by norm_num
  have hsymp : (2 / (2 : ℝ)) • phase 2 2 tmsExample ∈ symplecticGroup (Fin 2) ℝ := by
    obtain ⟨-, S, hS, e⟩ := tmsExample_spec
    have : diagonal (Sum.elim (fun _ : Fin 2 => (1 : ℝ)) fun _ : Fin 2 => 1) = 1 := by
      rw [← diagonal_one]; congr 1; funext p; rcases p with p | p <;> rfl
    rw [show (2 : ℝ) / 2 = 1 by norm_num, one_smul, e, this, Matrix.mul_one]
    exact mul_mem hS (SymplecticGroup.transpose_mem hS)
  obtain ⟨ν, hν, -, hr⟩ := entanglementEntropy_correct eigvals he close hc tmsExample 2 (by norm_num) hph ((physical_pure_iff _ 2 (by norm_num) hph).mpr hsymp)
    (.int 0) none [0] (by decide) (by simp) (by simp) (by simp)
  rw [hr]
  have h2 : ∀ e : Fin 1 → Fin 2, (∀ x, e x = 0) → SympSpectrum (((2 / (2 : ℝ)) • phase 2 2 tmsExample).submatrix (Sum.map e e) (Sum.map e e)) fun _ => 17 / 8 := by
    intro e he0
    refine ⟨fun _ => by norm_num, 1, one_mem _, ?_⟩
    rw [Matrix.one_mul, transpose_one, Matrix.mul_one]
    ext p q
    rcases p with p | p <;> rcases q with q | q <;> fin_cases p <;> fin_cases q <;> simp [phase, quad, tmsExample, diagonal, he0]
  have h3 := sympSpectrum_unique (N := 1) _ ν _ hν (h2 _ fun x => by fin_cases x; rfl)
  have h4 : ν 0 = 17 / 8 := by
    have := h3.mem_iff (a := ν 0)
    simpa using this
  simp only [List.length_singleton, Fin.sum_univ_one] at *
  congr 1
  change thermalEntropy ((ν 0 - 1) / 2) = _
  rw [h4]; norm_num

/-! ### C67: the logarithmic negativity -/

/-- the sign matrix of the partial transpose -/
def ptSign (A : Finset (Fin N)) : Fin N ⊕ Fin N → ℝ := Sum.elim (fun _ => 1) fun k => if k ∈ A then -1 else 1

theorem ptSign_sq (A : Finset (Fin N)) (p) : ptSign A p * ptSign A p = 1 := by
  rcases p with p | p
  · simp [ptSign]
  · simp only [ptSign, Sum.elim_inr]; split_ifs <;> norm_num

theorem partialTranspose_eq (A : Finset (Fin N)) (V : Matrix (Fin N ⊕ Fin N) (Fin N ⊕ Fin N) ℝ) :
    partialTranspose A V = diagonal (ptSign A) * V * diagonal (ptSign A) := by
  ext p q
  rw [mul_diagonal, diagonal_mul]; rfl

theorem ptSign_diag_sq (A : Finset (Fin N)) : diagonal (ptSign A) * diagonal (ptSign A) = 1 := by
  rw [diagonal_mul_diagonal, ← diagonal_one]; congr 1; funext p; exact ptSign_sq A p

theorem partialTranspose_posDef (A : Finset (Fin N)) (V : Matrix (Fin N ⊕ Fin N) (Fin N ⊕ Fin N) ℝ) (hV : V.PosDef) : (partialTranspose A V).PosDef := by
  rw [partialTranspose_eq]
  have hu : IsUnit (diagonal (ptSign A)) := ⟨⟨_, _, ptSign_diag_sq A, ptSign_diag_sq A⟩, rfl⟩
  have := (IsUnit.posDef_star_right_conjugate_iff hu).mpr hV
  rwa [star_eq_conjTranspose, diagonal_conjTranspose, star_trivial] at this

theorem partialTranspose_smul (A : Finset (Fin N)) (c : ℝ) (V : Matrix (Fin N ⊕ Fin N) (Fin N ⊕ Fin N) ℝ) :
    partialTranspose A (c • V) = c • partialTranspose A V := by
  rw [partialTranspose_eq, partialTranspose_eq, Matrix.mul_smul, Matrix.smul_mul]

/-- the set of modes in a list -/
def modeSet (l : List ℕ) : Finset (Fin N) := Finset.univ.filter fun k : Fin N => (k : ℕ) ∈ l

/-- C67: `log_negativity` of a physical covariance matrix is the sum of `max(0, -log ν)` over the symplectic eigenvalues of the partial transpose on the
selected modes, in units of `ħ/2`. -/
theorem logNegativity_correct (eigvals : ℕ → RArr → ℕ → ℂ) (he : EigvalsContract eigvals) (close : ℝ → ℝ → Bool)
    (hc : ∀ x y, close x y = true ↔ x = y) (cov : RArr) (hbar : ℝ) (hV : Physical (phase N N cov) hbar) (a : ModesArg) (sp : Option PyInt) (l : List ℕ)
    (hl : getPartition a sp N = .ok l) (ν : Fin N → ℝ) (hν : SympSpectrum (partialTranspose (modeSet l) ((2 / hbar) • phase N N cov)) ν) :
    logNegativity eigvals close 0 (2 * N) (2 * N) cov a sp hbar = .ok (∑ i, max 0 (-Real.log (ν i))) := by
  unfold logNegativity
  have hval := (isValidCov_exact close hc (2 * N) (2 * N) cov hbar).mpr ⟨rfl, N, rfl, hV⟩
  have hN : 2 * N / 2 = N := by omega
  simp only [hval, not_true, if_false, hN, hl, bind, Except.bind, pure, Except.pure]
  congr 1
  set S : ℕ → ℝ := fun i => if i < N then 1 else if i - N ∈ l then -1 else 1 with hS
  have hph : phase N N (fun i j => S i * (cov i j / (hbar / 2)) * S j) = partialTranspose (modeSet l) ((2 / hbar) • phase N N cov) := by
    rw [← phase_scale]
    have hSx : ∀ k : Fin N, S k = 1 := fun k => by simp [hS]
    have hSp : ∀ k : Fin N, S (N + k) = if k ∈ modeSet (N := N) l then -1 else 1 := fun k => by simp [hS, modeSet]
    ext p q
    rcases p with p | p <;> rcases q with q | q <;> simp only [phase, of_apply, quad, partialTranspose, Sum.elim_inl, Sum.elim_inr, hSx, hSp]
  rw [← hph] at hν
  have hperm := symplecticEigenvals_sum eigvals he _ ν hν
  rw [((hperm.filter _).map _).sum_eq]
  have hgen : ∀ L : List ℝ, (∀ x ∈ L, 0 < x) → ((L.filter fun nu => nu < 1).map fun nu => -Real.log nu).sum = (L.map fun nu => max 0 (-Real.log nu)).sum := by
    intro L hL
    induction L with
    | nil => rfl
    | cons x L ih =>
      have ih := ih fun y hy => hL y (List.mem_cons_of_mem _ hy)
      have hx := hL x List.mem_cons_self
      rw [List.map_cons, List.sum_cons, List.filter_cons, ← ih]
      by_cases h : x < 1
      · simp only [h, decide_true, if_true, List.map_cons, List.sum_cons]
        rw [max_eq_right (by have := Real.log_neg hx h; linarith)]
      · simp only [h, decide_false, Bool.false_eq_true, if_false]
        rw [max_eq_left (by have := Real.log_nonneg (not_lt.mp h); linarith), zero_add]
  rw [hgen _ (by intro x hx; obtain ⟨i, rfl⟩ := List.mem_ofFn.mp hx; exact hν.1 i), List.map_ofFn, List.sum_ofFn]
  rfl

/-- C67: `log_negativity` is defined for every physical state; it is nonnegative and it is zero exactly if the partial transpose is physical (PPT). -/
theorem logNegativity_zero_iff (eigvals : ℕ → RArr → ℕ → ℂ) (he : EigvalsContract eigvals) (close : ℝ → ℝ → Bool)
    (hc : ∀ x y, close x y = true ↔ x = y) (cov : RArr) (hbar : ℝ) (hh : 0 < hbar) (hV : Physical (phase N N cov) hbar) (a : ModesArg) (sp : Option PyInt)
    (l : List ℕ) (hl : getPartition a sp N = .ok l) :
    ∃ s, logNegativity eigvals close 0 (2 * N) (2 * N) cov a sp hbar = .ok s ∧ 0 ≤ s ∧ (s = 0 ↔ Physical (partialTranspose (modeSet l) (phase N N cov)) hbar) := by
  obtain ⟨μ, hμ⟩ := sympSpectrum_exists _ (partialTranspose_posDef (modeSet l) _ (physical_posDef _ hbar hh hV))
  have hν := sympSpectrum_smul _ μ (2 / hbar) (by positivity) hμ
  rw [← partialTranspose_smul] at hν
  refine ⟨_, logNegativity_correct eigvals he close hc cov hbar hV a sp l hl _ hν, Finset.sum_nonneg fun i _ => le_max_left _ _, ?_⟩
  rw [Finset.sum_eq_zero_iff_of_nonneg fun i _ => le_max_left _ _, physical_iff_spectrum _ hbar hh.le μ hμ]
  refine ⟨fun h i => ?_, fun h i _ => ?_⟩
  · have h1 := h i (Finset.mem_univ i)
    have h2 : 0 ≤ Real.log (2 / hbar * μ i) := by
      have := max_eq_left_iff.mp h1; linarith
    by_contra hlt
    push Not at hlt
    have h3 : 2 / hbar * μ i < 1 := by
      rw [div_mul_eq_mul_div, div_lt_one hh]; linarith
    have := Real.log_neg (hν.1 i) h3
    linarith
  · apply max_eq_left
    have h3 : 1 ≤ 2 / hbar * μ i := by
      rw [div_mul_eq_mul_div, le_div_iff₀ hh]; linarith [h i]
    have := Real.log_nonneg h3
    linarith

/-- C67: errors of `log_negativity`: `ValueError` for an unphysical matrix, and otherwise those of the selection of modes. -/
theorem logNegativity_error (eigvals : ℕ → RArr → ℕ → ℂ) (close : ℝ → ℝ → Bool) (hc : ∀ x y, close x y = true ↔ x = y) (n m : ℕ) (cov : RArr)
    (a : ModesArg) (sp : Option PyInt) (hbar : ℝ) :
    (¬ (n = m ∧ ∃ N, n = 2 * N ∧ Physical (phase N N cov) hbar) → logNegativity eigvals close 0 n m cov a sp hbar = .error .valueError) ∧
    ((n = m ∧ ∃ N, n = 2 * N ∧ Physical (phase N N cov) hbar) → ∀ e, getPartition a sp (n / 2) = .error e →
      logNegativity eigvals close 0 n m cov a sp hbar = .error e) := by
  rw [← isValidCov_exact close hc]
  unfold logNegativity
  constructor
  · intro h; simp [h]
  · intro h e hp; simp [h, hp, bind, Except.bind]

/-- reversing all momenta does not change the symplectic eigenvalues -/
theorem sympSpectrum_timeReversal (V : Matrix (Fin N ⊕ Fin N) (Fin N ⊕ Fin N) ℝ) (ν : Fin N → ℝ) (h : SympSpectrum V ν) :
    SympSpectrum (partialTranspose Finset.univ V) ν := by
  obtain ⟨hp, S, hS, e⟩ := h
  set T := diagonal (ptSign (Finset.univ : Finset (Fin N))) with hT
  have hTT : T * T = 1 := ptSign_diag_sq _
  have hTt : Tᵀ = T := diagonal_transpose _
  have hTb : T = fromBlocks 1 0 0 (-1) := by
    rw [hT]; ext p q
    rcases p with p | p <;> rcases q with q | q <;> simp [diagonal, ptSign, Matrix.one_apply]
    split_ifs <;> simp
  have hTJ : T * J (Fin N) ℝ * T = -J (Fin N) ℝ := by
    rw [hTb]; unfold J
    rw [fromBlocks_multiply, fromBlocks_multiply, fromBlocks_neg]
    simp
  have hTD : T * diagonal (Sum.elim ν ν) = diagonal (Sum.elim ν ν) * T := by
    rw [hT, diagonal_mul_diagonal, diagonal_mul_diagonal]; congr 1; funext p; ring
  refine ⟨hp, T * S * T, ?_, ?_⟩
  · rw [SymplecticGroup.mem_iff, transpose_mul, transpose_mul, hTt]
    calc T * S * T * J (Fin N) ℝ * (T * (Sᵀ * T)) = T * S * (T * J (Fin N) ℝ * T) * Sᵀ * T := by simp only [Matrix.mul_assoc]
      _ = -(T * (S * J (Fin N) ℝ * Sᵀ) * T) := by rw [hTJ]; simp only [Matrix.mul_neg, Matrix.neg_mul, Matrix.mul_assoc]
      _ = J (Fin N) ℝ := by rw [SymplecticGroup.mem_iff.mp hS, hTJ, neg_neg]
  · rw [partialTranspose_eq, e, transpose_mul, transpose_mul, hTt]
    calc T * (S * diagonal (Sum.elim ν ν) * Sᵀ) * T = T * S * (T * T) * diagonal (Sum.elim ν ν) * Sᵀ * T := by rw [hTT, Matrix.mul_one]; simp only [Matrix.mul_assoc]
      _ = T * S * T * (T * diagonal (Sum.elim ν ν)) * Sᵀ * T := by simp only [Matrix.mul_assoc]
      _ = _ := by rw [hTD]; simp only [Matrix.mul_assoc]

/-- C67: the logarithmic negativity is the same for the two parts of a bipartition. -/
theorem logNegativity_symmetric (eigvals : ℕ → RArr → ℕ → ℂ) (he : EigvalsContract eigvals) (close : ℝ → ℝ → Bool)
    (hc : ∀ x y, close x y = true ↔ x = y) (cov : RArr) (hbar : ℝ) (hh : 0 < hbar) (hV : Physical (phase N N cov) hbar)
    (a a' : ModesArg) (sp sp' : Option PyInt) (l l' : List ℕ) (hl : getPartition a sp N = .ok l) (hl' : getPartition a' sp' N = .ok l')
    (hcomp : ∀ k < N, k ∈ l' ↔ k ∉ l) :
    logNegativity eigvals close 0 (2 * N) (2 * N) cov a sp hbar = logNegativity eigvals close 0 (2 * N) (2 * N) cov a' sp' hbar := by
  have hpd := partialTranspose_posDef (modeSet l) _ (physical_posDef _ 2 (by norm_num) (physical_scale _ hbar hh hV))
  obtain ⟨ν, hν⟩ := sympSpectrum_exists _ hpd
  rw [logNegativity_correct eigvals he close hc cov hbar hV a sp l hl ν hν]
  refine (logNegativity_correct eigvals he close hc cov hbar hV a' sp' l' hl' ν ?_).symm
  have := sympSpectrum_timeReversal _ ν hν
  convert this using 1
  ext p q
  have hs : ∀ p, ptSign (modeSet (N := N) l') p = ptSign (Finset.univ : Finset (Fin N)) p * ptSign (modeSet l) p := by
    intro p
    rcases p with p | p
    · simp [ptSign]
    · have := hcomp p p.2
      simp only [ptSign, Sum.elim_inr, modeSet, Finset.mem_filter, Finset.mem_univ, true_and, this, if_true]
      split_ifs <;> norm_num
  rw [partialTranspose_eq, partialTranspose_eq, partialTranspose_eq]
  simp only [mul_diagonal, diagonal_mul, hs]
  ring

/-- the form of the commutator matrix after a partial transpose -/
theorem ptSign_J (A : Finset (Fin N)) :
    diagonal (ptSign A) * J (Fin N) ℝ * diagonal (ptSign A) =
      J (Fin N) ℝ * diagonal (fun p : Fin N ⊕ Fin N => if Sum.elim id id p ∈ A then (-1 : ℝ) else 1) := by
  ext p q
  rw [mul_diagonal, diagonal_mul, mul_diagonal]
  unfold J
  rcases p with p | p <;> rcases q with q | q <;> simp [ptSign, Matrix.one_apply]
  · by_cases h : p = q
    · subst h; by_cases hp : p ∈ A <;> simp [hp]
    · simp [h]
  · by_cases h : p = q
    · subst h; by_cases hp : p ∈ A <;> simp [hp]
    · simp [h]

/-- C67: local Gaussian unitaries (acting on the selected modes and on the others separately) do not change the logarithmic negativity. -/
theorem logNegativity_local (eigvals : ℕ → RArr → ℕ → ℂ) (he : EigvalsContract eigvals) (close : ℝ → ℝ → Bool)
    (hc : ∀ x y, close x y = true ↔ x = y) (cov cov' : RArr) (hbar : ℝ) (hh : 0 < hbar) (hV : Physical (phase N N cov) hbar)
    (a : ModesArg) (sp : Option PyInt) (l : List ℕ) (hl : getPartition a sp N = .ok l)
    (S : Matrix (Fin N ⊕ Fin N) (Fin N ⊕ Fin N) ℝ) (hS : S ∈ symplecticGroup (Fin N) ℝ) (hloc : Uncorrelated (modeSet l) S)
    (hcov : phase N N cov' = S * phase N N cov * Sᵀ) :
    logNegativity eigvals close 0 (2 * N) (2 * N) cov' a sp hbar = logNegativity eigvals close 0 (2 * N) (2 * N) cov a sp hbar := by
  have hpd := partialTranspose_posDef (modeSet l) _ (physical_posDef _ 2 (by norm_num) (physical_scale _ hbar hh hV))
  obtain ⟨ν, hν⟩ := sympSpectrum_exists _ hpd
  rw [logNegativity_correct eigvals he close hc cov hbar hV a sp l hl ν hν]
  refine logNegativity_correct eigvals he close hc cov' hbar (hcov ▸ physical_symplectic _ S hbar hV hS) a sp l hl ν ?_
  set A := modeSet (N := N) l
  set T := diagonal (ptSign A) with hT
  have hTT : T * T = 1 := ptSign_diag_sq _
  have hTt : Tᵀ = T := diagonal_transpose _
  set K := diagonal (fun p : Fin N ⊕ Fin N => if Sum.elim id id p ∈ A then (-1 : ℝ) else 1) with hK
  have hTJ : T * J (Fin N) ℝ * T = J (Fin N) ℝ * K := ptSign_J A
  have hKS : K * Sᵀ = Sᵀ * K := by
    ext p q
    rw [hK, diagonal_mul, mul_diagonal, transpose_apply]
    by_cases h1 : Sum.elim id id p ∈ A <;> by_cases h2 : Sum.elim id id q ∈ A
    · simp [h1, h2]
    · rw [hloc q p (by tauto)]; simp
    · rw [hloc q p (by tauto)]; simp
    · simp [h1, h2]
  have hKT : T * J (Fin N) ℝ * K * T = J (Fin N) ℝ := by
    have : K * T = T * K := by rw [hK, hT, diagonal_mul_diagonal, diagonal_mul_diagonal]; congr 1; funext p; ring
    have hKK : K * K = 1 := by
      rw [hK, diagonal_mul_diagonal, ← diagonal_one]; congr 1; funext p; split_ifs <;> norm_num
    rw [Matrix.mul_assoc, this, ← Matrix.mul_assoc, hTJ, Matrix.mul_assoc, hKK, Matrix.mul_one]
  have hmem : T * S * T ∈ symplecticGroup (Fin N) ℝ := by
    rw [SymplecticGroup.mem_iff, transpose_mul, transpose_mul, hTt]
    calc T * S * T * J (Fin N) ℝ * (T * (Sᵀ * T)) = T * S * (T * J (Fin N) ℝ * T) * Sᵀ * T := by simp only [Matrix.mul_assoc]
      _ = T * S * J (Fin N) ℝ * (K * Sᵀ) * T := by rw [hTJ]; simp only [Matrix.mul_assoc]
      _ = T * (S * J (Fin N) ℝ * Sᵀ) * K * T := by rw [hKS]; simp only [Matrix.mul_assoc]
      _ = J (Fin N) ℝ := by rw [SymplecticGroup.mem_iff.mp hS, hKT]
  have := sympSpectrum_congr _ _ hmem ν hν
  convert this using 1
  rw [partialTranspose_eq, partialTranspose_eq, hcov, transpose_mul, transpose_mul, hTt, ← hT]
  rw [← Matrix.smul_mul, ← Matrix.mul_smul]
  set W := (2 / hbar) • phase N N cov
  calc T * (S * W * Sᵀ) * T = T * S * 1 * W * 1 * Sᵀ * T := by simp only [Matrix.mul_one, Matrix.mul_assoc]
    _ = T * S * (T * T) * W * (T * T) * Sᵀ * T := by rw [hTT]
    _ = _ := by simp only [Matrix.mul_assoc]

/-- the partial transpose of a physical state without correlations between the two parts is physical -/
theorem physical_partialTranspose (A : Finset (Fin N)) (W : Matrix (Fin N ⊕ Fin N) (Fin N ⊕ Fin N) ℝ) (hbar : ℝ) (hW : Physical W hbar)
    (hun : Uncorrelated A W) : Physical (partialTranspose A W) hbar := by
  have h1 := hW.2
  have h2 := conj_uncertainty W hbar hW
  refine ⟨?_, ?_⟩
  · unfold Matrix.IsSymm
    rw [partialTranspose_eq, transpose_mul, transpose_mul, diagonal_transpose, hW.1.eq, Matrix.mul_assoc]
  · set c : ℂ := Complex.I * (hbar / 2 : ℝ)
    let u : Fin N ⊕ Fin N → ℂ := fun p => if Sum.elim id id p ∈ A then 0 else 1
    let v : Fin N ⊕ Fin N → ℂ := fun p => if Sum.elim id id p ∈ A then (ptSign A p : ℂ) else 0
    have hu := h1.mul_mul_conjTranspose_same (diagonal u)
    have hv := h2.mul_mul_conjTranspose_same (diagonal v)
    have := hu.add hv
    convert this using 1
    ext p q
    rw [diagonal_conjTranspose, diagonal_conjTranspose]
    simp only [Matrix.add_apply, mul_diagonal, diagonal_mul, map_apply, Matrix.smul_apply, Matrix.sub_apply, smul_eq_mul, partialTranspose_eq, Pi.star_apply]
    have ho : omega N p q = 0 ∨ Sum.elim id id p = (Sum.elim id id q : Fin N) := by
      unfold omega J
      rcases p with p | p <;> rcases q with q | q <;> simp [Matrix.one_apply] <;> tauto
    have hsgn : Sum.elim id id p ∈ A → omega N p q * (ptSign A p * ptSign A q : ℝ) = -omega N p q := by
      intro hp
      unfold omega J
      rcases p with p | p <;> rcases q with q | q <;> simp [Matrix.one_apply, ptSign] at hp ⊢
      · by_cases h : p = q
        · subst h; simp [hp]
        · simp [h]
      · by_cases h : p = q
        · subst h; simp [hp]
        · simp [h]
    have hrs : ∀ q, ((starRingEnd ℂ) (ptSign A q : ℂ)) = (ptSign A q : ℂ) := fun q => Complex.conj_ofReal _
    by_cases hp : Sum.elim id id p ∈ A <;> by_cases hq : Sum.elim id id q ∈ A
    · have := hsgn hp
      push_cast at this
      simp only [u, v, hp, hq, if_true, star_zero, mul_zero, zero_add, RCLike.star_def, hrs]
      push_cast
      linear_combination c * this
    · have hW0 := hun p q (by tauto)
      have : omega N p q = 0 := ho.resolve_right (fun h => hq (h ▸ hp))
      simp [u, v, hp, hq, hW0, this]
    · have hW0 := hun p q (by tauto)
      have : omega N p q = 0 := ho.resolve_right (fun h => hp (h ▸ hq))
      simp [u, v, hp, hq, hW0, this]
    · have hsp : ∀ x : Fin N ⊕ Fin N, Sum.elim id id x ∉ A → ptSign A x = 1 := by
        intro x hx
        rcases x with x | x
        · rfl
        · simp only [ptSign, Sum.elim_inr]; exact if_neg hx
      simp [u, v, hp, hq, hsp]

/-- C67: a separable state has logarithmic negativity zero: `V ≥ W` for the covariance matrix `W` of a product state. -/
theorem logNegativity_separable (eigvals : ℕ → RArr → ℕ → ℂ) (he : EigvalsContract eigvals) (close : ℝ → ℝ → Bool)
    (hc : ∀ x y, close x y = true ↔ x = y) (cov : RArr) (hbar : ℝ) (hh : 0 < hbar) (hV : Physical (phase N N cov) hbar)
    (a : ModesArg) (sp : Option PyInt) (l : List ℕ) (hl : getPartition a sp N = .ok l) (W : Matrix (Fin N ⊕ Fin N) (Fin N ⊕ Fin N) ℝ)
    (hW : Physical W hbar) (hun : Uncorrelated (modeSet l) W) (hVW : (phase N N cov - W).PosSemidef) :
    logNegativity eigvals close 0 (2 * N) (2 * N) cov a sp hbar = .ok 0 := by
  obtain ⟨s, hs, -, h0⟩ := logNegativity_zero_iff eigvals he close hc cov hbar hh hV a sp l hl
  rw [hs]
  congr 1
  refine h0.mpr ?_
  have hp := physical_partialTranspose _ W hbar hW hun
  refine ⟨?_, ?_⟩
  · unfold Matrix.IsSymm
    rw [partialTranspose_eq, transpose_mul, transpose_mul, diagonal_transpose, hV.1.eq, Matrix.mul_assoc]
  · have h1 := hVW.mul_mul_conjTranspose_same (diagonal (ptSign (modeSet (N := N) l)))
    rw [← real_posSemidef_map] at h1
    have := hp.2.add h1
    convert this using 1
    rw [partialTranspose_eq, partialTranspose_eq, diagonal_conjTranspose, star_trivial]
    ext p q
    simp only [Matrix.add_apply, map_apply, mul_diagonal, diagonal_mul, Matrix.smul_apply, Matrix.sub_apply, smul_eq_mul]
    push_cast
    ring

/-- non-vacuous: the logarithmic negativity of the two-mode squeezed vacuum is `2 r = log 4` -/
theorem logNegativity_tms (eigvals : ℕ → RArr → ℕ → ℂ) (he : EigvalsContract eigvals) (close : ℝ → ℝ → Bool) (hc : ∀ x y, close x y = true ↔ x = y) :
    logNegativity eigvals close 0 (2 * 2) (2 * 2) tmsExample .none (some (.int 1)) 2 = .ok (Real.log 4) := by
  have hph : Physical (phase 2 2 tmsExample) 2 := (physical_iff_spectrum _ 2 (by norm_num) _ tmsExample_spec).mpr fun _ => by norm_num
  have hs : (1 / Real.sqrt 2) * (1 / Real.sqrt 2) = 1 / 2 := by
    have := Real.mul_self_sqrt (by norm_num : (0 : ℝ) ≤ 2)
    field_simp; nlinarith
  set t := 1 / Real.sqrt 2
  have hspec : SympSpectrum (partialTranspose (modeSet [0]) ((2 / (2 : ℝ)) • phase 2 2 tmsExample)) ![4, 1 / 4] := by
    refine ⟨fun i => by fin_cases i <;> norm_num, fromBlocks !![t, t; t, -t] 0 0 !![t, t; t, -t], ?_, ?_⟩
    · rw [SymplecticGroup.mem_iff]
      unfold J
      rw [fromBlocks_transpose, fromBlocks_multiply, fromBlocks_multiply]
      congr 1 <;> ext i j <;> fin_cases i <;> fin_cases j <;> simp [Matrix.mul_apply, Matrix.vecMul, dotProduct, transpose_apply, Fin.sum_univ_two] <;> nlinarith
    · have hd : diagonal (Sum.elim (![4, 1 / 4] : Fin 2 → ℝ) ![4, 1 / 4]) = fromBlocks !![4, 0; 0, 1 / 4] 0 0 !![4, 0; 0, 1 / 4] := by
        ext p q
        rcases p with p | p <;> rcases q with q | q <;> fin_cases p <;> fin_cases q <;> simp [diagonal]
      rw [hd, fromBlocks_transpose, fromBlocks_multiply, fromBlocks_multiply]
      ext p q
      rcases p with p | p <;> rcases q with q | q <;> fin_cases p <;> fin_cases q <;>
        simp [partialTranspose, modeSet, phase, quad, tmsExample, Matrix.mul_apply, Matrix.vecMul, dotProduct, transpose_apply, Fin.sum_univ_two] <;> nlinarith
  rw [logNegativity_correct eigvals he close hc tmsExample 2 hph .none _ [0] (by decide) _ hspec]
  congr 1
  rw [Fin.sum_univ_two]
  have h4 : (0 : ℝ) < Real.log 4 := Real.log_pos (by norm_num)
  simp only [cons_val_zero, cons_val_one, one_div, Real.log_inv, neg_neg]
  rw [max_eq_left (by linarith), max_eq_right h4.le, zero_add]

/-- Finding: repeated modes are not rejected.  For two modes `entanglement_entropy(cov, [0, 0])` is the entropy of the whole (pure) state: zero, although mode 0
is entangled. -/
theorem entanglementEntropy_duplicate (eigvals : ℕ → RArr → ℕ → ℂ) (he : EigvalsContract eigvals) (close : ℝ → ℝ → Bool) (hc : ∀ x y, close x y = true ↔ x = y) :
    entanglementEntropy eigvals close 0 (2 * 2) (2 * 2) tmsExample (.seq [.int 0, .int 0]) none 2 = .ok 0 := by
  have hph : Physical (phase 2 2 tmsExample) 2 := (physical_iff_spectrum _ 2 (by norm_num) _ tmsExample_spec).mpr fun _ => by norm_num
  have hdet : ((2 / (2 : ℝ)) • phase 2 2 tmsExample).det = 1 := by
    refine (physical_pure_iff _ 2 (by norm_num) hph).mpr ?_
    obtain ⟨-, S, hS, e⟩ := tmsExample_spec
    have : diagonal (Sum.elim (fun _ : Fin 2 => (1 : ℝ)) fun _ : Fin 2 => 1) = 1 := by
      rw [← diagonal_one]; congr 1; funext p; rcases p with p | p <;> rfl
    rw [show (2 : ℝ) / 2 = 1 by norm_num, one_smul, e, this, Matrix.mul_one]
    exact mul_mem hS (SymplecticGroup.transpose_mem hS)
  unfold entanglementEntropy
  have hval := (isPureCov_exact close hc (2 * 2) (2 * 2) tmsExample 2).mpr ⟨rfl, 2, rfl, hph, hdet⟩
  have hg : getPartition (.seq [.int 0, .int 0]) none (2 * 2 / 2) = .ok [0, 0] := by decide
  simp only [hval, not_true, if_false, hg, bind, Except.bind]
  have hr : reducedGaussian (⟨2 * (2 * 2 / 2), fun _ => 0, fun i j => tmsExample i j / (2 / 2)⟩ : GState ℝ) [0, 0] =
      .ok ⟨2 * (2 * 2 / 2), fun _ => 0, fun i j => tmsExample i j / (2 / 2)⟩ := by
    unfold reducedGaussian
    simp
  rw [hr]
  have hcov : (fun i j => tmsExample i j / (2 / 2)) = tmsExample := by funext i j; norm_num
  simp only [hcov]
  rw [vonneumannEntropy_correct (N := 2) eigvals he close hc tmsExample 2 hph (fun _ => 1) (by
    rw [show (2 : ℝ) / 2 = 1 by norm_num, one_smul]; exact tmsExample_spec)]
  simp [thermalEntropy_zero]

end Verif.Props
