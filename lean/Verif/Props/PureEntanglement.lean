/-
**C110** The logarithmic negativity of a pure state is a function of the spectrum of a part, and it bounds the entanglement entropy.
-/
import Verif.Props.EntropyThermal
import Verif.Props.SampleGraphLaw
import Mathlib.Analysis.SpecialFunctions.Trigonometric.DerivHyp

set_option linter.style.longLine false
set_option linter.unusedSectionVars false

namespace Verif.Props

open Matrix Verif.Spec Verif.Model Verif.Model.Symp Verif.Model.Ent Verif.Model.Means Verif.Lemmas Verif.Lemmas.Symp Verif.Lemmas.FPar Verif.Lemmas.FTr Verif.Lemmas.Heis Verif.Lemmas.Klein

noncomputable section

variable {N M L : ℕ} {hbar : ℝ}

/-- the symplectic eigenvalues of a pure state after a partial transpose, and of the two parts -/
theorem partialTranspose_pure (f : Fin N → Fin L) (g : Fin M → Fin L) (hb : Function.Bijective (Sum.elim f g)) {W : Matrix (Fin L ⊕ Fin L) (Fin L ⊕ Fin L) ℝ} (hs : W.IsSymm)
    (hW : W ∈ symplecticGroup (Fin L) ℝ) (A : Finset (Fin L)) (hf : ∀ k, f k ∈ A) (hg : ∀ k, g k ∉ A) {α : Fin N → ℝ} {β : Fin M → ℝ} {μ : Fin L → ℝ} (hα : SympSpectrum (resM W f) α) (hβ : SympSpectrum (resM W g) β)
    (hμ : SympSpectrum (partialTranspose A W) μ) (F : ℝ → ℝ) : ∑ k, F ((μ k + (μ k)⁻¹) / 2) = ∑ k, F (α k) + ∑ k, F (β k) := by
  obtain ⟨hp, R, hR, e⟩ := hμ
  set T := diagonal (ptSign A) with hT
  set S := diagonal (fun p : Fin L ⊕ Fin L => if Sum.elim id id p ∈ A then (-1 : ℝ) else 1) with hS
  have hTT : T * T = 1 := ptSign_diag_sq _
  have hTJ : T * J (Fin L) ℝ * T = J (Fin L) ℝ * S := ptSign_J A
  have hSS : S * S = 1 := by
    rw [hS, diagonal_mul_diagonal, ← diagonal_one]; congr 1; funext p; split_ifs <;> norm_num
  have hWJ : W * J (Fin L) ℝ * W = J (Fin L) ℝ := by
    have h1 := SymplecticGroup.mem_iff.mp hW
    rwa [hs.eq] at h1
  have hx : partialTranspose A W * J (Fin L) ℝ * (T * S * W * S * T) = J (Fin L) ℝ := by
    rw [partialTranspose_eq]
    calc T * W * T * J (Fin L) ℝ * (T * S * W * S * T) = T * W * (T * J (Fin L) ℝ * T) * S * W * S * T := by simp only [Matrix.mul_assoc]
      _ = T * W * J (Fin L) ℝ * (S * S) * W * S * T := by rw [hTJ]; simp only [Matrix.mul_assoc]
      _ = T * (W * J (Fin L) ℝ * W) * S * T := by rw [hSS, Matrix.mul_one]; simp only [Matrix.mul_assoc]
      _ = T * (J (Fin L) ℝ * S) * T := by rw [hWJ]; simp only [Matrix.mul_assoc]
      _ = (T * T) * J (Fin L) ℝ * (T * T) := by rw [← hTJ]; simp only [Matrix.mul_assoc]
      _ = J (Fin L) ℝ := by rw [hTT, Matrix.one_mul, Matrix.mul_one]
  set D := diagonal (Sum.elim μ μ) with hD
  set D' := diagonal (Sum.elim (fun k => (μ k)⁻¹) fun k => (μ k)⁻¹) with hD'
  have hDJ : D * J (Fin L) ℝ = J (Fin L) ℝ * D := by
    have hb : D = fromBlocks (diagonal μ) 0 0 (diagonal μ) := by rw [hD, fromBlocks_diagonal]
    rw [hb]
    unfold J
    rw [fromBlocks_multiply, fromBlocks_multiply]
    simp only [Matrix.mul_zero, Matrix.zero_mul, zero_add, add_zero, Matrix.mul_one, Matrix.one_mul, Matrix.mul_neg, Matrix.neg_mul, neg_zero]
  have hDD : D * D' = 1 := by
    rw [hD, hD', diagonal_mul_diagonal, ← diagonal_one]
    congr 1; funext p
    rcases p with p | p <;> exact mul_inv_cancel₀ (hp p).ne'
  have hy : partialTranspose A W * J (Fin L) ℝ * (R * D' * Rᵀ) = J (Fin L) ℝ := by
    rw [e]
    calc R * D * Rᵀ * J (Fin L) ℝ * (R * D' * Rᵀ) = R * D * (Rᵀ * J (Fin L) ℝ * R) * D' * Rᵀ := by simp only [Matrix.mul_assoc]
      _ = R * (D * J (Fin L) ℝ) * D' * Rᵀ := by rw [SymplecticGroup.mem_iff'.mp hR]; simp only [Matrix.mul_assoc]
      _ = R * J (Fin L) ℝ * (D * D') * Rᵀ := by rw [hDJ]; simp only [Matrix.mul_assoc]
      _ = J (Fin L) ℝ := by rw [hDD, Matrix.mul_one, SymplecticGroup.mem_iff.mp hR]
  have hu : IsUnit (partialTranspose A W * J (Fin L) ℝ) := by
    rw [Matrix.isUnit_iff_isUnit_det]
    have h1 := congrArg Matrix.det hx
    rw [det_mul] at h1
    exact isUnit_of_mul_isUnit_left (h1 ▸ isUnit_det_J (Fin L) ℝ)
  have hxy : T * S * W * S * T = R * D' * Rᵀ := hu.mul_left_cancel (hx.trans hy.symm)
  have hc : SympSpectrum ((1 / 2 : ℝ) • (T * W * T + T * S * W * S * T)) fun k => (μ k + (μ k)⁻¹) / 2 := by
    refine ⟨fun k => by have := hp k; positivity, R, hR, ?_⟩
    have h1 : diagonal (Sum.elim (fun k => (μ k + (μ k)⁻¹) / 2) fun k => (μ k + (μ k)⁻¹) / 2) = (1 / 2 : ℝ) • (D + D') := by
      rw [hD, hD', diagonal_add, ← diagonal_smul]
      congr 1; funext p
      rcases p with p | p <;> simp <;> ring
    rw [h1, hxy, ← partialTranspose_eq, e, Matrix.mul_smul, Matrix.smul_mul, Matrix.mul_add, Matrix.add_mul]
  let eq : Fin (N + M) ≃ Fin L := finSumFinEquiv.symm.trans (Equiv.ofBijective _ hb)
  have ef : ∀ k, eq (Fin.castAdd M k) = f k := fun k => by simp [eq]
  have eg : ∀ k, eq (Fin.natAdd N k) = g k := fun k => by simp [eq]
  have hj : resM ((1 / 2 : ℝ) • (T * W * T + T * S * W * S * T)) eq = joint (partialTranspose Finset.univ (resM W f)) (resM W g) := by
    have hent1 : ∀ p q, (T * W * T) p q = ptSign A p * W p q * ptSign A q := by
      intro p q
      rw [hT, mul_diagonal, diagonal_mul]
    have hent2 : ∀ p q, (T * S * W * S * T) p q = ptSign A p * (if Sum.elim id id p ∈ A then (-1 : ℝ) else 1) * W p q * (if Sum.elim id id q ∈ A then (-1 : ℝ) else 1) * ptSign A q := by
      intro p q
      rw [hT, hS, diagonal_mul_diagonal, mul_diagonal, mul_diagonal, diagonal_mul]
    ext p q
    obtain ⟨p, rfl⟩ := (Equiv.sumCongr finSumFinEquiv finSumFinEquiv).surjective p
    obtain ⟨q, rfl⟩ := (Equiv.sumCongr finSumFinEquiv finSumFinEquiv).surjective q
    rcases p with (p | p) | (p | p) <;> rcases q with (q | q) | (q | q) <;> simp [resM, joint_eq, jIdx, shuf, ef, eg, hent1, hent2, hf, hg, ptSign, partialTranspose] <;> ring
  have h1 := sympSpectrum_perm eq hc
  have h2 := sympSpectrum_joint (sympSpectrum_timeReversal _ _ hα) hβ
  rw [← hj] at h2
  have h3 := thermal_sum_unique h1 h2 F
  rw [Fin.sum_univ_add (fun k => F (Fin.append α β k))] at h3
  simp only [Fin.append_left, Fin.append_right] at h3
  rw [← h3]
  exact (eq.sum_comp fun k => F ((μ k + (μ k)⁻¹) / 2)).symm

/-- the contribution of a symplectic eigenvalue of a part to the logarithmic negativity of a pure state -/
def negOf (ν : ℝ) : ℝ := Real.log (ν + Real.sqrt (ν ^ 2 - 1))

theorem negOf_one : negOf 1 = 0 := by simp [negOf]

theorem negOf_cosh {μ : ℝ} (h : 0 < μ) : negOf ((μ + μ⁻¹) / 2) = |Real.log μ| := by
  have h1 : ((μ + μ⁻¹) / 2) ^ 2 - 1 = ((μ - μ⁻¹) / 2) ^ 2 := by field_simp; ring
  rw [negOf, h1, Real.sqrt_sq_eq_abs]
  rcases le_total 1 μ with hm | hm
  · have h2 : μ⁻¹ ≤ 1 := inv_le_one_of_one_le₀ hm
    rw [abs_of_nonneg (by linarith), abs_of_nonneg (Real.log_nonneg hm)]
    congr 1; ring
  · have h2 : 1 ≤ μ⁻¹ := (one_le_inv₀ h).mpr hm
    rw [abs_of_nonpos (by linarith), abs_of_nonpos (Real.log_nonpos h.le hm), ← Real.log_inv]
    congr 1; ring

theorem pure_negativity (f : Fin N → Fin L) (g : Fin M → Fin L) (hb : Function.Bijective (Sum.elim f g)) {W : Matrix (Fin L ⊕ Fin L) (Fin L ⊕ Fin L) ℝ} (hs : W.IsSymm)
    (hW : W ∈ symplecticGroup (Fin L) ℝ) (A : Finset (Fin L)) (hf : ∀ k, f k ∈ A) (hg : ∀ k, g k ∉ A) {α : Fin N → ℝ} {β : Fin M → ℝ} {μ : Fin L → ℝ} (hα : SympSpectrum (resM W f) α) (hβ : SympSpectrum (resM W g) β)
    (hμ : SympSpectrum (partialTranspose A W) μ) : ∑ k, max 0 (-Real.log (μ k)) = ∑ k, negOf (α k) := by
  have h1 := partialTranspose_pure f g hb hs hW A hf hg hα hβ hμ negOf
  simp only [negOf_cosh (hμ.1 _)] at h1
  rw [← bipartite_spectrum W hs hW f g hb α β hα hβ negOf negOf_one] at h1
  have h2 : ∑ k, Real.log (μ k) = 0 := by
    obtain ⟨hp, R, hR, e⟩ := hμ
    have h3 : (partialTranspose A W).det = 1 := by
      have h4 : (diagonal (ptSign A)).det * (diagonal (ptSign A)).det = 1 := by rw [← det_mul, ptSign_diag_sq, det_one]
      rw [partialTranspose_eq, det_mul, det_mul, SymplecticGroup.det_eq_one hW, mul_one, h4]
    rw [e, det_mul, det_mul, det_transpose, SymplecticGroup.det_eq_one hR, det_diagonal, Fintype.prod_sum_type, one_mul, mul_one] at h3
    simp only [Sum.elim_inl, Sum.elim_inr] at h3
    have h5 := congrArg Real.log h3
    have h6 : (∏ k, μ k) ≠ 0 := Finset.prod_ne_zero_iff.mpr fun k _ => (hp k).ne'
    rw [Real.log_mul h6 h6, Real.log_one, Real.log_prod fun k _ => (hp k).ne'] at h5
    linarith
  have h7 : ∀ x : ℝ, max 0 (-x) = (|x| - x) / 2 := fun x => by
    rcases le_total 0 x with h | h
    · rw [abs_of_nonneg h, max_eq_left (by linarith)]; ring
    · rw [abs_of_nonpos h, max_eq_right (by linarith)]; ring
  simp only [h7]
  rw [← Finset.sum_div, Finset.sum_sub_distrib, h1, h2]
  ring

/-- a single mode: the entropy is below the logarithmic negativity -/
theorem thermalEntropy_lt_negOf {ν : ℝ} (h : 1 < ν) : thermalEntropy ((ν - 1) / 2) < negOf ν := by
  have hc : Continuous thermalEntropy := by
    have h : Continuous fun x : ℝ => x * Real.log x := Real.continuous_mul_log
    exact (h.comp (continuous_id.add continuous_const)).sub h
  have key : StrictMonoOn (fun x => negOf x - thermalEntropy ((x - 1) / 2)) (Set.Ici 1) := by
    refine strictMonoOn_of_deriv_pos (convex_Ici 1) ?_ fun x hx => ?_
    · refine ContinuousOn.sub ?_ (hc.comp (by fun_prop)).continuousOn
      refine ContinuousOn.log (by fun_prop) fun x hx => ?_
      have := Set.mem_Ici.mp hx
      have := Real.sqrt_nonneg (x ^ 2 - 1)
      linarith
    · rw [interior_Ici, Set.mem_Ioi] at hx
      have hr : 0 < x ^ 2 - 1 := by nlinarith
      have hq := Real.sqrt_pos.mpr hr
      set r := Real.sqrt (x ^ 2 - 1) with hrd
      have d1 : HasDerivAt (fun y : ℝ => Real.sqrt (y ^ 2 - 1)) (x / r) x := by
        have h1 : HasDerivAt (fun y : ℝ => y ^ 2 - 1) (2 * x) x := by
          simpa using ((hasDerivAt_id x).pow 2).sub_const 1
        convert h1.sqrt hr.ne' using 1
        rw [← hrd]; field_simp
      have d2 : HasDerivAt negOf (1 / r) x := by
        have h1 := ((hasDerivAt_id x).add d1).log (by simp only [id, Pi.add_apply]; rw [← hrd]; linarith)
        refine h1.congr_deriv ?_
        simp only [id, Pi.add_apply]
        rw [← hrd]; field_simp; ring
      have hy : 0 < (x - 1) / 2 := by linarith
      have d3 : HasDerivAt thermalEntropy (Real.log ((x - 1) / 2 + 1) + 1 - (Real.log ((x - 1) / 2) + 1)) ((x - 1) / 2) := by
        have h1 : HasDerivAt (fun y : ℝ => y * Real.log y) (Real.log ((x - 1) / 2) + 1) ((x - 1) / 2) := Real.hasDerivAt_mul_log hy.ne'
        have h2 := (Real.hasDerivAt_mul_log (show (x - 1) / 2 + 1 ≠ 0 by linarith)).comp_add_const ((x - 1) / 2) 1
        exact h2.sub h1
      have d4 : HasDerivAt (fun y : ℝ => (y - 1) / 2) (1 / 2) x := by
        simpa using ((hasDerivAt_id x).sub_const 1).div_const 2
      have d5 := d2.sub (d3.comp x d4)
      have d6 : deriv (fun x => negOf x - thermalEntropy ((x - 1) / 2)) x = _ := d5.deriv
      rw [d6]
      set u := (Real.log ((x - 1) / 2 + 1) - Real.log ((x - 1) / 2)) / 2 with hu
      have hu0 : 0 < u := by
        have := Real.log_lt_log hy (show (x - 1) / 2 < (x - 1) / 2 + 1 by linarith)
        rw [hu]; linarith
      have hsinh : Real.sinh u = 1 / r := by
        have e1 : Real.exp u * Real.exp u = (x + 1) / (x - 1) := by
          rw [← Real.exp_add, hu, add_halves, ← Real.log_div (by linarith) hy.ne', Real.exp_log (by apply div_pos <;> linarith)]
          field_simp; ring
        have e2 : Real.exp (-u) = (Real.exp u)⁻¹ := Real.exp_neg u
        have e3 : 0 < Real.exp u := Real.exp_pos u
        have e4 : Real.exp u = r / (x - 1) := by
          have h1 : 0 < x - 1 := by linarith
          have h2 : r * r = x ^ 2 - 1 := Real.mul_self_sqrt hr.le
          have h3 : (r / (x - 1)) * (r / (x - 1)) = (x + 1) / (x - 1) := by
            rw [div_mul_div_comm, h2]; field_simp; ring
          have h4 : 0 < r / (x - 1) := by positivity
          nlinarith [mul_self_nonneg (Real.exp u - r / (x - 1))]
        rw [Real.sinh_eq, e2, e4]
        have h1 : x - 1 ≠ 0 := by linarith
        have h2 : r ^ 2 = x ^ 2 - 1 := Real.sq_sqrt hr.le
        rw [inv_div]
        field_simp
        rw [h2]; ring
      have hlt := Real.self_lt_sinh_iff.mpr hu0
      rw [hsinh] at hlt
      rw [hu] at hlt
      linarith
  have := key (Set.mem_Ici.mpr le_rfl) (Set.mem_Ici.mpr h.le) h
  simp only [negOf_one, sub_self, zero_div, thermalEntropy_zero] at this
  linarith

/-- an enumeration of the other modes -/
theorem exists_complement (f : Fin N → Fin L) (hf : Function.Injective f) : ∃ (M : ℕ) (g : Fin M → Fin L), Function.Bijective (Sum.elim f g) := by
  classical
  let e := Fintype.equivFin {k : Fin L // k ∉ Set.range f}
  refine ⟨_, fun k => (e.symm k).1, ?_, fun k => ?_⟩
  · rintro (x | x) (y | y) h
    · exact congrArg Sum.inl (hf h)
    · exact absurd ⟨x, h⟩ (e.symm y).2
    · exact absurd ⟨y, h.symm⟩ (e.symm x).2
    · exact congrArg Sum.inr (e.symm.injective (Subtype.ext h))
  · by_cases hk : k ∈ Set.range f
    · obtain ⟨x, rfl⟩ := hk
      exact ⟨.inl x, rfl⟩
    · exact ⟨.inr (e ⟨k, hk⟩), by simp⟩

/-- C110: for a pure state both measures of entanglement are functions of the symplectic eigenvalues `ν` of the selected modes, the logarithmic negativity is
`∑ log (ν + √(ν² - 1))`.  The two agree only for product states: the entanglement entropy is at most the logarithmic negativity, with equality exactly if the selected modes
are uncorrelated with the others, and then both are zero. -/
theorem pure_entanglement (eigvals : ℕ → RArr → ℕ → ℂ) (he : EigvalsContract eigvals) (close : ℝ → ℝ → Bool)
    (hc : ∀ x y, close x y = true ↔ x = y) (cov : RArr) (hbar : ℝ) (hh : 0 < hbar) (hV : Physical (phase N N cov) hbar)
    (hpure : ((2 / hbar) • phase N N cov).det = 1) (a : ModesArg) (sp : Option PyInt) (l : List ℕ) (hl : getPartition a sp N = .ok l) (hne : l ≠ [])
    (hlen : l.length ≠ N) (hnd : l.Nodup) :
    let e : Fin l.length → Fin N := fun a =>
      ⟨l.getD a 0, getPartition_range _ _ _ _ hl _ (by rw [List.getD_eq_getElem _ _ a.2]; exact List.getElem_mem _)⟩
    ∃ (ν : Fin l.length → ℝ) (s t : ℝ), SympSpectrum (((2 / hbar) • phase N N cov).submatrix (Sum.map e e) (Sum.map e e)) ν ∧ (∀ i, 1 ≤ ν i) ∧
      entanglementEntropy eigvals close 0 (2 * N) (2 * N) cov a sp hbar = .ok s ∧ logNegativity eigvals close 0 (2 * N) (2 * N) cov a sp hbar = .ok t ∧
      s = ∑ i, thermalEntropy ((ν i - 1) / 2) ∧ t = ∑ i, Real.log (ν i + Real.sqrt (ν i ^ 2 - 1)) ∧
      0 ≤ s ∧ s ≤ t ∧ (s = t ↔ Uncorrelated (modeSet l) (phase N N cov)) ∧ (t = 0 ↔ Uncorrelated (modeSet l) (phase N N cov)) := by
  intro e
  obtain ⟨ν, hν, h1, hE⟩ := entanglementEntropy_correct eigvals he close hc cov hbar hh hV hpure a sp l hl hne hlen hnd
  have gg : ∀ i : Fin l.length, l.getD i 0 = l.get i := fun i => by rw [List.getD_eq_getElem _ _ i.2]; rfl
  have hinj : Function.Injective e := by
    intro x y h
    have h' : l.getD x 0 = l.getD y 0 := congrArg Fin.val h
    rw [gg, gg] at h'
    exact hnd.get_inj_iff.mp h'
  obtain ⟨M, g, hb⟩ := exists_complement e hinj
  have hmem : ∀ k, e k ∈ modeSet (N := N) l := fun k => by
    rw [modeSet, Finset.mem_filter]
    refine ⟨Finset.mem_univ _, ?_⟩
    change l.getD k 0 ∈ l
    rw [gg]; exact List.get_mem _ _
  have hnm : ∀ k, g k ∉ modeSet (N := N) l := fun k hk => by
    rw [modeSet, Finset.mem_filter] at hk
    obtain ⟨i, hi⟩ := List.get_of_mem hk.2
    have h2 : e i = g k := Fin.ext (by change l.getD i 0 = _; rw [gg, hi])
    have := hb.1 (a₁ := .inl i) (a₂ := .inr k) h2
    cases this
  have hgi : Function.Injective g := fun x y h => Sum.inr_injective (hb.1 (by simpa using h))
  have hW := physical_scale _ hbar hh hV
  obtain ⟨β, hβ, hβ1⟩ := sympSpectrum_physical _ 2 (by norm_num) (physical_submatrix _ 2 hW g hgi)
  rw [show (2 : ℝ) / 2 = 1 by norm_num, one_smul] at hβ
  have hsymp := (physical_pure_iff _ hbar hh hV).mp hpure
  obtain ⟨μ, hμ⟩ := sympSpectrum_exists _ (partialTranspose_posDef (modeSet l) _ (physical_posDef _ 2 (by norm_num) hW))
  have hL := logNegativity_correct eigvals he close hc cov hbar hV a sp l hl μ hμ
  rw [pure_negativity e g hb hW.1 hsymp (modeSet l) hmem hnm hν hβ hμ] at hL
  have hle : ∀ i, thermalEntropy ((ν i - 1) / 2) ≤ negOf (ν i) := fun i => by
    rcases (h1 i).eq_or_lt with h | h
    · rw [← h, negOf_one, sub_self, zero_div, thermalEntropy_zero]
    · exact (thermalEntropy_lt_negOf h).le
  have hs0 : 0 ≤ ∑ i, thermalEntropy ((ν i - 1) / 2) := Finset.sum_nonneg fun i _ => thermalEntropy_nonneg _ (by linarith [h1 i])
  have hst : ∑ i, thermalEntropy ((ν i - 1) / 2) ≤ ∑ i, negOf (ν i) := Finset.sum_le_sum fun i _ => hle i
  have hones : (∑ i, thermalEntropy ((ν i - 1) / 2) = ∑ i, negOf (ν i)) → ∀ i, ν i = 1 := fun h i => by
    by_contra hi
    have h2 := (Finset.sum_eq_sum_iff_of_le fun i _ => hle i).mp h i (Finset.mem_univ i)
    exact (thermalEntropy_lt_negOf (lt_of_le_of_ne (h1 i) (Ne.symm hi))).ne h2
  have hun : Uncorrelated (modeSet l) (phase N N cov) → ∑ i, negOf (ν i) = 0 := fun h => by
    have h2 := logNegativity_separable eigvals he close hc cov hbar hh hV a sp l hl _ hV h (by rw [sub_self]; exact Matrix.PosSemidef.zero)
    rw [hL] at h2
    exact Except.ok.inj h2
  have hback : (∀ i, ν i = 1) → Uncorrelated (modeSet l) (phase N N cov) := fun h => by
    have hbi := bipartite_spectrum _ hW.1 hsymp e g hb ν β hν hβ (fun x => thermalEntropy ((x - 1) / 2)) (by simp [thermalEntropy_zero])
    have z : ∑ i, thermalEntropy ((ν i - 1) / 2) = 0 := Finset.sum_eq_zero fun i _ => by rw [h i, sub_self, zero_div, thermalEntropy_zero]
    obtain ⟨τ, hτ, hτ1⟩ := sympSpectrum_physical _ hbar hh hV
    have hτ2 : ∀ k, τ k = 1 := fun k => pure_spectrum _ hW hpure τ hτ k
    have z2 : ∑ i, thermalEntropy ((τ i - 1) / 2) = 0 := Finset.sum_eq_zero fun i _ => by rw [hτ2 i, sub_self, zero_div, thermalEntropy_zero]
    have h3 := (entropy_parts hh e g hb hV h1 hβ1 hτ1 hν hβ hτ).2.mp (by rw [z2, ← hbi, z, add_zero])
    have hin : ∀ p : Fin N ⊕ Fin N, Sum.elim id id p ∈ modeSet (N := N) l → ∃ x, p = Sum.map e e x := fun p hp => by
      rcases p with p | p <;> obtain ⟨x | x, rfl⟩ := hb.2 p
      · exact ⟨.inl x, rfl⟩
      · exact absurd hp (hnm x)
      · exact ⟨.inr x, rfl⟩
      · exact absurd hp (hnm x)
    have hout : ∀ p : Fin N ⊕ Fin N, Sum.elim id id p ∉ modeSet (N := N) l → ∃ x, p = Sum.map g g x := fun p hp => by
      rcases p with p | p <;> obtain ⟨x | x, rfl⟩ := hb.2 p
      · exact absurd (hmem x) hp
      · exact ⟨.inl x, rfl⟩
      · exact absurd (hmem x) hp
      · exact ⟨.inr x, rfl⟩
    intro p q hpq
    by_cases hp : Sum.elim id id p ∈ modeSet (N := N) l
    · obtain ⟨x, rfl⟩ := hin p hp
      obtain ⟨y, rfl⟩ := hout q (hpq.mp hp)
      exact h3 x y
    · obtain ⟨x, rfl⟩ := hout p hp
      obtain ⟨y, rfl⟩ := hin q (by by_contra hq; exact hp (hpq.mpr hq))
      rw [← hV.1.apply]
      exact h3 y x
  refine ⟨ν, _, _, hν, h1, hE, hL, rfl, rfl, hs0, hst, ⟨fun h => hback (hones h), fun h => ?_⟩, ⟨fun h => hback (hones (le_antisymm hst (h ▸ hs0))), hun⟩⟩
  have := hun h
  linarith

/-- non-vacuous: the two halves of the two-mode squeezed vacuum, `log_negativity = log 4`, so the entanglement entropy is strictly smaller -/
example (eigvals : ℕ → RArr → ℕ → ℂ) (he : EigvalsContract eigvals) (close : ℝ → ℝ → Bool) (hc : ∀ x y, close x y = true ↔ x = y) :
    ∃ s, entanglementEntropy eigvals close 0 (2 * 2) (2 * 2) tmsExample .none (some (.int 1)) 2 = .ok s ∧ 0 ≤ s ∧ s < Real.log 4 := by
  have hph : Physical (phase 2 2 tmsExample) 2 := (physical_iff_spectrum _ 2 (by norm_num) _ tmsExample_spec).mpr fun _ => by norm_num
  have hdet : (((2 : ℝ) / 2) • phase 2 2 tmsExample).det = 1 := by
    obtain ⟨-, S, hS, e⟩ := tmsExample_spec
    rw [show (2 : ℝ) / 2 = 1 by norm_num, one_smul, e, det_mul, det_mul, det_transpose, SymplecticGroup.det_eq_one hS, det_diagonal, Fintype.prod_sum_type]
    simp
  obtain ⟨ν, s, t, -, -, hs, ht, -, -, h0, hle, h1, h2⟩ := pure_entanglement eigvals he close hc tmsExample 2 (by norm_num) hph hdet .none (some (.int 1)) [0]
    (by simp [getPartition]) (by simp) (by simp) (by simp)
  rw [logNegativity_tms eigvals he close hc] at ht
  obtain rfl : Real.log 4 = t := Except.ok.inj ht
  refine ⟨s, hs, h0, lt_of_le_of_ne hle fun h => ?_⟩
  have h3 := h2.mpr (h1.mp h)
  have := Real.log_pos (show (1 : ℝ) < 4 by norm_num)
  linarith

end

end Verif.Props
