/-
**C109** Among the states with given mean photon numbers the product of thermal states has the largest entropy.
-/
import Verif.Props.EntropySub
import Verif.Props.SamplesBasic

set_option linter.style.longLine false
set_option linter.unusedSectionVars false

namespace Verif.Props

open Matrix Verif.Spec Verif.Model Verif.Model.Symp Verif.Model.Ent Verif.Model.Means Verif.Lemmas Verif.Lemmas.Symp Verif.Lemmas.FPar Verif.Lemmas.FTr Verif.Lemmas.Heis Verif.Lemmas.Klein

noncomputable section

variable {N M L : ℕ} {hbar : ℝ}

/-- the entropy of a thermal state increases with the mean photon number -/
theorem thermalEntropy_strictMono : StrictMonoOn thermalEntropy (Set.Ici 0) := by
  have hc : Continuous thermalEntropy := by
    have h : Continuous fun x : ℝ => x * Real.log x := Real.continuous_mul_log
    exact (h.comp (continuous_id.add continuous_const)).sub h
  refine strictMonoOn_of_deriv_pos (convex_Ici 0) hc.continuousOn fun x hx => ?_
  rw [interior_Ici, Set.mem_Ioi] at hx
  have h1 : HasDerivAt (fun y : ℝ => y * Real.log y) (Real.log x + 1) x := Real.hasDerivAt_mul_log hx.ne'
  have h2 : HasDerivAt (fun y : ℝ => (y + 1) * Real.log (y + 1)) (Real.log (x + 1) + 1) x := by
    have := (Real.hasDerivAt_mul_log (show x + 1 ≠ 0 by linarith)).comp_add_const x 1
    exact this
  have h3 : HasDerivAt thermalEntropy (Real.log (x + 1) + 1 - (Real.log x + 1)) x := h2.sub h1
  rw [h3.deriv]
  have := Real.log_lt_log hx (show x < x + 1 by linarith)
  linarith

/-- the average of the two variances of mode `k` -/
def meanVar (W : Matrix (Fin N ⊕ Fin N) (Fin N ⊕ Fin N) ℝ) (k : Fin N) : ℝ := (W (Sum.inl k) (Sum.inl k) + W (Sum.inr k) (Sum.inr k)) / 2

/-- a single mode -/
theorem thermal_bound_one {W : Matrix (Fin 1 ⊕ Fin 1) (Fin 1 ⊕ Fin 1) ℝ} (hs : Wᵀ = W) (hpos : 0 ≤ meanVar W 0) {κ : Fin 1 → ℝ} (h : SympSpectrum W κ) :
    κ 0 ≤ meanVar W 0 ∧ (κ 0 = meanVar W 0 → W = diagonal (Sum.elim (meanVar W) (meanVar W))) := by
  obtain ⟨hk, S, hS, e⟩ := h
  have hd : W.det = κ 0 ^ 2 := by
    rw [e, det_mul, det_mul, det_transpose, SymplecticGroup.det_eq_one hS, det_diagonal, Fintype.prod_sum_type]
    simp [pow_two]
  have hd2 : W.det = W (Sum.inl 0) (Sum.inl 0) * W (Sum.inr 0) (Sum.inr 0) - W (Sum.inl 0) (Sum.inr 0) * W (Sum.inr 0) (Sum.inl 0) := by
    rw [← det_submatrix_equiv_self (finSumFinEquiv (m := 1) (n := 1)).symm W, det_fin_two]
    rfl
  have hsym : W (Sum.inr 0) (Sum.inl 0) = W (Sum.inl 0) (Sum.inr 0) := by
    conv_lhs => rw [← hs]
    rfl
  rw [hsym] at hd2
  set a := W (Sum.inl 0) (Sum.inl 0) with ha
  set d := W (Sum.inr 0) (Sum.inr 0) with hdd
  set b := W (Sum.inl 0) (Sum.inr 0) with hb
  have hm : meanVar W 0 = (a + d) / 2 := rfl
  have key : meanVar W 0 ^ 2 - κ 0 ^ 2 = ((a - d) / 2) ^ 2 + b ^ 2 := by rw [hm, ← hd, hd2]; ring
  refine ⟨?_, fun heq => ?_⟩
  · nlinarith [sq_nonneg ((a - d) / 2), sq_nonneg b, hk 0]
  · rw [heq, sub_self] at key
    have h1 : (a - d) / 2 = 0 := by nlinarith [sq_nonneg ((a - d) / 2), sq_nonneg b]
    have h2 : b = 0 := by nlinarith [sq_nonneg ((a - d) / 2), sq_nonneg b]
    ext p q
    rcases p with p | p <;> rcases q with q | q <;> rw [Subsingleton.elim p 0, Subsingleton.elim q 0]
    · rw [diagonal_apply_eq, Sum.elim_inl, hm, ← ha]; linarith
    · rw [diagonal_apply_ne _ (by simp), ← hb, h2]
    · rw [diagonal_apply_ne _ (by simp), hsym, h2]
    · rw [diagonal_apply_eq, Sum.elim_inr, hm, ← hdd]; linarith

theorem meanVar_ge_one {W : Matrix (Fin N ⊕ Fin N) (Fin N ⊕ Fin N) ℝ} (hph : Physical W 2) (k : Fin N) : 1 ≤ meanVar W k := by
  have hp1 : Physical (resM W (fun _ : Fin 1 => k)) 2 := physical_submatrix _ _ hph _ fun a b _ => Subsingleton.elim a b
  obtain ⟨κ, hκ, hκ1⟩ := sympSpectrum_physical _ 2 (by norm_num) hp1
  rw [show (2 : ℝ) / 2 = 1 by norm_num, one_smul] at hκ
  have hm : meanVar (resM W (fun _ : Fin 1 => k)) 0 = meanVar W k := rfl
  have hpd := physical_posDef _ 2 (by norm_num) hph
  have h0 : 0 ≤ meanVar W k := by
    have h1 := hpd.diag_pos (i := Sum.inl k)
    have h2 := hpd.diag_pos (i := Sum.inr k)
    unfold meanVar
    linarith
  exact (hκ1 0).trans (hm ▸ (thermal_bound_one hp1.1.eq (hm ▸ h0) hκ).1)

/-- the bound for the covariance matrix in units of the vacuum -/
theorem thermal_bound {N : ℕ} {W : Matrix (Fin N ⊕ Fin N) (Fin N ⊕ Fin N) ℝ} (hph : Physical W 2) {τ : Fin N → ℝ} (hτ : ∀ k, 1 ≤ τ k) (h : SympSpectrum W τ) :
    ∑ k, thermalEntropy ((τ k - 1) / 2) ≤ ∑ k, thermalEntropy ((meanVar W k - 1) / 2) ∧
      (∑ k, thermalEntropy ((τ k - 1) / 2) = ∑ k, thermalEntropy ((meanVar W k - 1) / 2) → W = diagonal (Sum.elim (meanVar W) (meanVar W))) := by
  have e1 : ∀ {l : ℕ} (X : Matrix (Fin l ⊕ Fin l) (Fin l ⊕ Fin l) ℝ), ((2 : ℝ) / 2) • X = X := fun X => by rw [show (2 : ℝ) / 2 = 1 by norm_num, one_smul]
  induction N with
  | zero => exact ⟨by simp, fun _ => Matrix.ext fun i => by rcases i with i | i <;> exact i.elim0⟩
  | succ N ih =>
    have hpA : Physical (resM W (Fin.castAdd 1)) 2 := physical_submatrix _ _ hph _ (Fin.castAdd_injective N 1)
    have hpB : Physical (resM W (Fin.natAdd N : Fin 1 → Fin (N + 1))) 2 := physical_submatrix _ _ hph _ (Fin.natAdd_injective 1 N)
    obtain ⟨ν, hν, hν1⟩ := sympSpectrum_physical _ 2 (by norm_num) hpA
    obtain ⟨κ, hκ, hκ1⟩ := sympSpectrum_physical _ 2 (by norm_num) hpB
    obtain ⟨c1, c2⟩ := entropy_consecutive (N := N) (M := 1) (hbar := 2) (by norm_num) hph hν1 hκ1 hτ hν hκ (by rw [e1]; exact h)
    rw [e1] at hν hκ
    obtain ⟨i1, i2⟩ := ih hpA hν1 hν
    have hm1 : ∀ k, meanVar (resM W (Fin.castAdd 1)) k = meanVar W (Fin.castAdd 1 k) := fun _ => rfl
    have hm2 : ∀ k, meanVar (resM W (Fin.natAdd N : Fin 1 → Fin (N + 1))) k = meanVar W (Fin.natAdd N k) := fun _ => rfl
    have hge := meanVar_ge_one hpB 0
    obtain ⟨b1, b2⟩ := thermal_bound_one hpB.1.eq (by linarith) hκ
    have b3 : thermalEntropy ((κ 0 - 1) / 2) ≤ thermalEntropy ((meanVar (resM W (Fin.natAdd N : Fin 1 → Fin (N + 1))) 0 - 1) / 2) :=
      thermalEntropy_strictMono.monotoneOn (Set.mem_Ici.mpr (by have := hκ1 0; linarith)) (Set.mem_Ici.mpr (by linarith)) (by linarith)
    have hsum : ∑ k, thermalEntropy ((meanVar W k - 1) / 2) = ∑ k, thermalEntropy ((meanVar (resM W (Fin.castAdd 1)) k - 1) / 2) + thermalEntropy ((meanVar (resM W (Fin.natAdd N : Fin 1 → Fin (N + 1))) 0 - 1) / 2) := by
      rw [Fin.sum_univ_castSucc]
      rfl
    rw [Fin.sum_univ_one (fun k : Fin 1 => thermalEntropy ((κ k - 1) / 2))] at c1 c2
    refine ⟨by rw [hsum]; linarith, fun heq => ?_⟩
    rw [hsum] at heq
    have q1 : ∑ k, thermalEntropy ((ν k - 1) / 2) = ∑ k, thermalEntropy ((meanVar (resM W (Fin.castAdd 1)) k - 1) / 2) := by linarith
    have q2 : thermalEntropy ((κ 0 - 1) / 2) = thermalEntropy ((meanVar (resM W (Fin.natAdd N : Fin 1 → Fin (N + 1))) 0 - 1) / 2) := by linarith
    have q3 : κ 0 = meanVar (resM W (Fin.natAdd N : Fin 1 → Fin (N + 1))) 0 := by
      have := thermalEntropy_strictMono.injOn (Set.mem_Ici.mpr (by have := hκ1 0; linarith)) (Set.mem_Ici.mpr (by linarith)) q2
      linarith
    have r1 := i2 q1
    have r2 := b2 q3
    have hap : meanVar W = Fin.append (meanVar (resM W (Fin.castAdd 1))) (meanVar (resM W (Fin.natAdd N : Fin 1 → Fin (N + 1)))) := by
      funext k
      induction k using Fin.addCases with
      | left k => rw [Fin.append_left, hm1]
      | right k => rw [Fin.append_right, hm2]
    refine (c2 (by linarith)).trans ?_
    rw [r1, r2, joint_diag, ← hap]

/-- the state is a product of thermal states: no displacement, no correlations, and both quadratures of mode `k` have the variance `hbar * (n k + 1 / 2)` -/
def IsThermalProduct (L : ℕ) (mu : ℕ → ℝ) (cov : RArr) (hbar : ℝ) (n : Fin L → ℝ) : Prop :=
  (∀ i < 2 * L, mu i = 0) ∧ phase L L cov = diagonal (Sum.elim (fun k => hbar * (n k + 1 / 2)) (fun k => hbar * (n k + 1 / 2)))

/-- **C109** The entropy returned by `vonneumann_entropy` is at most the sum of the entropies of thermal states with the mean photon numbers returned by `photon_number_mean_vector`, and it is equal to it precisely for the product of
these thermal states. -/
theorem entropy_le_thermal (eigvals : ℕ → RArr → ℕ → ℂ) (he : EigvalsContract eigvals) (close : ℝ → ℝ → Bool) (hc : ∀ x y, close x y = true ↔ x = y) (hh : 0 < hbar) (s : GState ℝ) (hs : s.len = 2 * L)
    (hps : Physical (phase L L s.cov) hbar) :
    ∃ e ns, vonneumannEntropy eigvals close 0 (2 * L) (2 * L) s.cov hbar = .ok e ∧ photonNumberMeanVector s hbar = .ok ns ∧ ns.length = L ∧ e ≤ (ns.map thermalEntropy).sum ∧
      (e = (ns.map thermalEntropy).sum ↔ IsThermalProduct L s.mu s.cov hbar fun k => ns.getD k 0) := by
  obtain ⟨τ, hτ, hτ1⟩ := sympSpectrum_physical _ hbar hh hps
  obtain ⟨ns, hns, hlen, hv⟩ := photonNumberMeanVector_ok s L hs hbar
  have hp2 := physical_scale _ hbar hh hps
  obtain ⟨b1, b2⟩ := thermal_bound hp2 hτ1 hτ
  set W := (2 / hbar) • phase L L s.cov with hW
  have hsum : (ns.map thermalEntropy).sum = ∑ k : Fin L, thermalEntropy (ns.getD k 0) := by
    have : ns = List.ofFn fun k : Fin L => ns.getD k 0 := List.ext_getElem (by simp [hlen]) fun i h1 h2 => by simp [List.getD_eq_getElem?_getD, List.getElem?_eq_getElem h1]
    conv_lhs => rw [this]
    rw [List.map_ofFn, List.sum_ofFn]
    rfl
  have hval : ∀ k : Fin L, ns.getD k 0 = (meanVar W k - 1) / 2 + (s.mu k ^ 2 + s.mu (k + L) ^ 2) / (2 * hbar) := fun k => by
    rw [hv k k.2]
    have : meanVar W k = (2 / hbar * s.cov k k + 2 / hbar * s.cov (k + L) (k + L)) / 2 := by
      rw [add_comm (k : ℕ) L]
      rfl
    rw [this]
    field_simp
    ring
  have hge : ∀ k, 0 ≤ (meanVar W k - 1) / 2 := fun k => by have := meanVar_ge_one hp2 k; linarith
  have hle : ∀ k : Fin L, (meanVar W k - 1) / 2 ≤ ns.getD k 0 := fun k => by
    rw [hval]
    have : 0 ≤ (s.mu k ^ 2 + s.mu (k + L) ^ 2) / (2 * hbar) := by positivity
    linarith
  have hmono : ∀ k : Fin L, thermalEntropy ((meanVar W k - 1) / 2) ≤ thermalEntropy (ns.getD k 0) := fun k =>
    thermalEntropy_strictMono.monotoneOn (Set.mem_Ici.mpr (hge k)) (Set.mem_Ici.mpr ((hge k).trans (hle k))) (hle k)
  have hs2 : ∑ k, thermalEntropy ((meanVar W k - 1) / 2) ≤ ∑ k : Fin L, thermalEntropy (ns.getD k 0) := Finset.sum_le_sum fun k _ => hmono k
  have hWV : phase L L s.cov = (hbar / 2) • W := by rw [hW, smul_smul, show hbar / 2 * (2 / hbar) = 1 by field_simp, one_smul]
  refine ⟨_, ns, vonneumannEntropy_correct eigvals he close hc s.cov hbar hps τ hτ, hns, hlen, by rw [hsum]; linarith, ?_⟩
  rw [hsum]
  constructor
  · intro heq
    have q1 : ∑ k, thermalEntropy ((τ k - 1) / 2) = ∑ k, thermalEntropy ((meanVar W k - 1) / 2) := le_antisymm b1 (by linarith)
    have q2 : ∑ k, thermalEntropy ((meanVar W k - 1) / 2) = ∑ k : Fin L, thermalEntropy (ns.getD k 0) := le_antisymm hs2 (by linarith)
    have q3 := (Finset.sum_eq_sum_iff_of_le fun k _ => hmono k).mp q2
    have q4 : ∀ k : Fin L, (meanVar W k - 1) / 2 = ns.getD k 0 := fun k =>
      thermalEntropy_strictMono.injOn (Set.mem_Ici.mpr (hge k)) (Set.mem_Ici.mpr ((hge k).trans (hle k))) (q3 k (Finset.mem_univ k))
    refine ⟨fun i hi => ?_, ?_⟩
    · have hz : ∀ k : Fin L, s.mu k = 0 ∧ s.mu (k + L) = 0 := fun k => by
        have h1 := q4 k
        rw [hval k] at h1
        have h2 : (s.mu k ^ 2 + s.mu (k + L) ^ 2) / (2 * hbar) = 0 := by linarith
        rw [div_eq_zero_iff, or_iff_left (by positivity)] at h2
        constructor <;> nlinarith [sq_nonneg (s.mu k), sq_nonneg (s.mu (k + L))]
      by_cases hiL : i < L
      · exact (hz ⟨i, hiL⟩).1
      · have := (hz ⟨i - L, by omega⟩).2
        rwa [show (i - L) + L = i by omega] at this
    · rw [hWV, b2 q1]
      ext p q
      have hk : ∀ k : Fin L, hbar / 2 * meanVar W k = hbar * (ns.getD k 0 + 1 / 2) := fun k => by rw [← q4 k]; ring
      by_cases hpq : p = q
      · subst hpq
        rw [Matrix.smul_apply, diagonal_apply_eq, diagonal_apply_eq, smul_eq_mul]
        rcases p with p | p <;> exact hk p
      · rw [Matrix.smul_apply, diagonal_apply_ne _ hpq, diagonal_apply_ne _ hpq, smul_zero]
  · rintro ⟨hmu, hcov⟩
    have hz : ∀ k : Fin L, ns.getD k 0 = (meanVar W k - 1) / 2 := fun k => by
      rw [hval k, hmu k (by omega), hmu (k + L) (by omega)]
      simp
    have hWd : W = diagonal (Sum.elim (meanVar W) (meanVar W)) := by
      have h2 : ∀ k, 2 / hbar * (hbar * (ns.getD (k : Fin L) 0 + 1 / 2)) = meanVar W k := fun k => by
        rw [hz k]
        field_simp
        ring
      conv_lhs => rw [hW, hcov]
      ext p q
      by_cases hpq : p = q
      · subst hpq
        rw [Matrix.smul_apply, diagonal_apply_eq, diagonal_apply_eq, smul_eq_mul]
        rcases p with p | p <;> exact h2 p
      · rw [Matrix.smul_apply, diagonal_apply_ne _ hpq, diagonal_apply_ne _ hpq, smul_zero]
    have hsp : SympSpectrum W (meanVar W) := ⟨fun k => by have := meanVar_ge_one hp2 k; linarith, 1, one_mem _, by rw [transpose_one, Matrix.one_mul, Matrix.mul_one]; exact hWd⟩
    rw [thermal_sum_unique hτ hsp fun x => thermalEntropy ((x - 1) / 2)]
    exact Finset.sum_congr rfl fun k _ => by rw [hz k]

/-- a case where the hypotheses are met and the bound is strict: two-mode squeezed light -/
example (eigvals : ℕ → RArr → ℕ → ℂ) (he : EigvalsContract eigvals) (close : ℝ → ℝ → Bool) (hc : ∀ x y, close x y = true ↔ x = y) :
    ∃ e ns, vonneumannEntropy eigvals close 0 4 4 tmsExample 2 = .ok e ∧ photonNumberMeanVector (⟨4, fun _ => 0, tmsExample⟩ : GState ℝ) 2 = .ok ns ∧ e < (ns.map thermalEntropy).sum := by
  have hp : Physical (phase 2 2 tmsExample) 2 := (physical_iff_spectrum _ 2 (by norm_num) _ tmsExample_spec).mpr fun _ => by norm_num
  obtain ⟨e, ns, h1, h2, -, h3, h4⟩ := entropy_le_thermal eigvals he close hc (by norm_num) (⟨4, fun _ => 0, tmsExample⟩ : GState ℝ) (L := 2) rfl hp
  refine ⟨e, ns, h1, h2, lt_of_le_of_ne h3 fun heq => ?_⟩
  have h5 := congrFun (congrFun (h4.mp heq).2 (.inl 0)) (.inl 1)
  simp [phase, quad, tmsExample] at h5

end

end Verif.Props
