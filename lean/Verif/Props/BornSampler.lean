/-
C68: the photon-number sampler draws each photon number with its Born probability, given the earlier photon numbers and the heterodyne outcomes of the later modes.
-/
import Verif.Props.Samples
import Verif.Props.FockPure
import Verif.Props.WilliamsonThm
import Verif.Props.Entanglement
import Verif.Props.Batch
import Verif.Props.LinAlgExists
import Verif.Lemmas.Outcomes
import Verif.Lemmas.FockUnique

set_option linter.unusedSectionVars false
set_option linter.unusedSimpArgs false

namespace Verif.Props
open Verif.Model Verif.Model.Symp Verif.Model.Conv Verif.Model.Means Verif.Model.Smp Verif.Model.Dec Verif.Model.Checks Verif.Spec Verif.Lemmas Verif.Lemmas.Symp
  Verif.Lemmas.FockS Verif.Lemmas.Outc Matrix

/-- The contract of `np.linalg.cholesky` on positive definite matrices (that the factor is triangular is not needed). -/
def FactorContract (chol : ℕ → RArr → Except PyErr RArr) : Prop :=
  ∀ (n : ℕ) (A : RArr), (toMatrix n n A).PosDef → ∃ L, chol n A = .ok L ∧ toMatrix n n L * (toMatrix n n L)ᵀ = toMatrix n n A

/-- The contracts of the routines that the sampler calls. -/
structure GoodSampler (lib : Lib) : Prop where
  sqrtm : SqrtmContract lib.sqrtm
  schur : SchurContract lib.schur
  close : ∀ x, lib.close x x = true
  chol : FactorContract lib.chol

/-- C68: `decompose_cov` splits a physical covariance matrix into the covariance matrix `T` of a pure state and a classical part `W Wᵀ`.  (No symplectic
eigenvalue may exceed `ħ/2` by less than 1e-10: the routine takes these for `ħ/2`.) -/
theorem decomposeCov_correct (lib : Lib) (hl : GoodSampler lib) (N : ℕ) (cov : RArr) (hbar : ℝ) (hh : 0 < hbar) (hph : Physical (phase N N cov) hbar)
    (hsp : ∀ ν, SympSpectrum (phase N N cov) ν → ∀ i, ν i = hbar / 2 ∨ hbar / 2 + 1e-10 ≤ ν i) :
    ∃ T W, decomposeCov lib (2 * N) cov hbar = .ok (T, W) ∧ Physical (phase N N T) hbar ∧ ((2 / hbar) • phase N N T).det = 1 ∧
      phase N N W * (phase N N W)ᵀ = phase N N cov - phase N N T := by
  have hpd := physical_posDef _ hbar hh hph
  obtain ⟨D, S, hw, hV, hS, d, hd, hD⟩ := williamson_correct lib.sqrtm hl.sqrtm lib.schur hl.schur lib.close hl.close N cov hpd
  have hspec : SympSpectrum (phase N N cov) d := ⟨hd, phase N N S, hS, by rw [← hV, hD]⟩
  have hn : 2 * N / 2 = N := by omega
  have hT : phase N N (mmul (2 * N) (fun i j => hbar / 2 * S i j) (tr S)) = (hbar / 2) • (phase N N S * (phase N N S)ᵀ) := by
    rw [phase_mmul, phase_tr, ← Matrix.smul_mul]; rfl
  unfold decomposeCov
  rw [hw]
  simp only [bind, Except.bind, pure, Except.pure, hn]
  refine ⟨_, _, rfl, ?_, ?_, ?_⟩
  · rw [hT]
    have h1 := physical_symplectic _ _ hbar (physical_vacuum N hbar hh.le).1 hS
    have e : phase N N (vacuumState N hbar).cov = (hbar / 2) • (1 : Matrix (Fin N ⊕ Fin N) (Fin N ⊕ Fin N) ℝ) := by
      have h1 := phase_eye (K := ℝ) N
      ext p q
      have h2 := congrFun (congrFun h1 p) q
      simp only [phase, of_apply] at h2
      simp only [phase, vacuumState, of_apply, h2, Matrix.smul_apply, smul_eq_mul]
      ring
    rw [e, Matrix.mul_smul, Matrix.mul_one, Matrix.smul_mul] at h1
    exact h1
  · rw [hT, smul_smul, show 2 / hbar * (hbar / 2) = 1 by field_simp, one_smul, det_mul, det_transpose]
    rw [SymplecticGroup.det_eq_one hS, one_mul]
  · have hR : phase N N (fun i j => Real.sqrt (if |D i j - hbar / 2 * eye i j| < 1e-10 then 0 else D i j - hbar / 2 * eye i j)) =
        diagonal (Sum.elim (fun i => Real.sqrt (d i - hbar / 2)) fun i => Real.sqrt (d i - hbar / 2)) := by
      ext p q
      have h1 := congrFun (congrFun (phase_eye (K := ℝ) N) p) q
      have h2 := congrFun (congrFun hD p) q
      simp only [phase, of_apply] at h1 h2
      simp only [phase, of_apply, h1, h2]
      by_cases hpq : p = q
      · subst hpq
        simp only [diagonal_apply_eq, Matrix.one_apply_eq, mul_one]
        have key : ∀ i, Real.sqrt (if |d i - hbar / 2| < 1e-10 then 0 else d i - hbar / 2) = Real.sqrt (d i - hbar / 2) := by
          intro i
          rcases hsp d hspec i with h | h
          · rw [h, sub_self]; simp
          · rw [if_neg]
            rw [abs_of_nonneg (by linarith [show (0 : ℝ) ≤ 1e-10 by norm_num])]
            linarith
        rcases p with p | p <;> exact key p
      · simp only [diagonal_apply_ne _ hpq, Matrix.one_apply_ne hpq, mul_zero, sub_zero, ite_self, Real.sqrt_zero]
    have hRR : diagonal (Sum.elim (fun i => Real.sqrt (d i - hbar / 2)) fun i => Real.sqrt (d i - hbar / 2)) *
        diagonal (Sum.elim (fun i => Real.sqrt (d i - hbar / 2)) fun i => Real.sqrt (d i - hbar / 2)) =
        diagonal (Sum.elim d d) - (hbar / 2) • (1 : Matrix (Fin N ⊕ Fin N) (Fin N ⊕ Fin N) ℝ) := by
      have hge := (physical_iff_spectrum _ hbar hh.le d hspec).mp hph
      rw [diagonal_mul_diagonal]
      ext p q
      by_cases hpq : p = q
      · subst hpq
        rcases p with p | p <;>
        · simp only [diagonal_apply_eq, Matrix.sub_apply, Matrix.smul_apply, Matrix.one_apply_eq, smul_eq_mul, mul_one, Sum.elim_inl, Sum.elim_inr]
          exact Real.mul_self_sqrt (by linarith [hge p])
      · simp [hpq]
    rw [phase_mmul, hT, hR, transpose_mul, diagonal_transpose, ← hV, hD, Matrix.mul_assoc, ← Matrix.mul_assoc (diagonal _) (diagonal _), hRR,
      Matrix.sub_mul, Matrix.mul_sub, Matrix.smul_mul, Matrix.one_mul, Matrix.mul_smul, Matrix.mul_assoc]

/-! #### The order of the modes -/

theorem reorder_reduction (s : GState ℝ) (M : ℕ) (hs : s.len = 2 * M) (order : List ℕ) (ho : order.Perm (List.range M)) : IsReduction M s order (Smp.reorder s order) := by
  have hlen : order.length = M := by rw [ho.length_eq, List.length_range]
  have hM : s.len / 2 = M := by omega
  have g1 : ∀ a < order.length, (order ++ order.map (· + M)).getD a 0 = order.getD a 0 := by
    intro a ha
    rw [List.getD_append _ _ _ _ ha]
  have g2 : ∀ a < order.length, (order ++ order.map (· + M)).getD (order.length + a) 0 = M + order.getD a 0 := by
    intro a ha
    rw [List.getD_append_right _ _ _ _ (by omega), Nat.add_sub_cancel_left, List.getD_eq_getElem _ _ (by simpa using ha),
      List.getElem_map, List.getD_eq_getElem _ _ ha, add_comm]
  unfold Smp.reorder
  dsimp only
  rw [hM]
  constructor
  · rw [hlen]; exact hs
  · intro a ha; exact ⟨congrArg s.mu (g1 a ha), congrArg s.mu (g2 a ha)⟩
  · intro a ha b hb; exact congrArg₂ s.cov (g1 a ha) (g1 b hb)
  · intro a ha b hb; exact congrArg₂ s.cov (g1 a ha) (g2 b hb)
  · intro a ha b hb; exact congrArg₂ s.cov (g2 a ha) (g1 b hb)
  · intro a ha b hb; exact congrArg₂ s.cov (g2 a ha) (g2 b hb)

theorem symp_permute {M : ℕ} (e : Fin M ≃ Fin M) (S : Matrix (Fin M ⊕ Fin M) (Fin M ⊕ Fin M) ℝ) (hS : S ∈ symplecticGroup (Fin M) ℝ) :
    S.submatrix (Sum.map e e) id ∈ symplecticGroup (Fin M) ℝ := by
  rw [SymplecticGroup.mem_iff] at hS ⊢
  have h : J (Fin M) ℝ = (J (Fin M) ℝ).submatrix (Sum.map e e) (Sum.map e e) := by
    unfold J
    ext p q
    rcases p with p | p <;> rcases q with q | q <;> simp [Matrix.one_apply]
  have h2 : S.submatrix (Sum.map e e) id * J (Fin M) ℝ * (S.submatrix (Sum.map e e) id)ᵀ = (S * J (Fin M) ℝ * Sᵀ).submatrix (Sum.map e e) (Sum.map e e) := by
    ext p q
    simp [Matrix.mul_apply]
  rw [h2, hS, ← h]

theorem spectrum_permute {M : ℕ} (e : Fin M ≃ Fin M) (V : Matrix (Fin M ⊕ Fin M) (Fin M ⊕ Fin M) ℝ) (ν : Fin M → ℝ)
    (h : SympSpectrum (V.submatrix (Sum.map e e) (Sum.map e e)) ν) : SympSpectrum V ν := by
  obtain ⟨hp, S, hS, hV⟩ := h
  refine ⟨hp, S.submatrix (Sum.map e.symm e.symm) id, symp_permute e.symm S hS, ?_⟩
  have h1 : V = (V.submatrix (Sum.map e e) (Sum.map e e)).submatrix (Sum.map e.symm e.symm) (Sum.map e.symm e.symm) := by
    rw [submatrix_submatrix]
    have : Sum.map e e ∘ Sum.map e.symm e.symm = id := by funext p; rcases p with p | p <;> simp
    rw [this, submatrix_id_id]
  conv_lhs => rw [h1, hV]
  ext p q
  simp [Matrix.mul_apply]

/-- the reordered state is physical, with the same symplectic eigenvalues -/
theorem reorder_physical (s : GState ℝ) (M : ℕ) (hs : s.len = 2 * M) (order : List ℕ) (ho : order.Perm (List.range M)) (hbar : ℝ)
    (hph : Physical (phase M M s.cov) hbar) : Physical (phase M M (Smp.reorder s order).cov) hbar ∧
      ∀ ν, SympSpectrum (phase M M (Smp.reorder s order).cov) ν → SympSpectrum (phase M M s.cov) ν := by
  have hlen : order.length = M := by rw [ho.length_eq, List.length_range]
  have hr0 := reorder_reduction s M hs order ho
  subst hlen
  have hb : ∀ m ∈ order, m < order.length := fun m hm => List.mem_range.mp (ho.mem_iff.mp hm)
  have hnd : order.Nodup := ho.nodup_iff.mpr List.nodup_range
  have hr := reduction_submatrix s (Smp.reorder s order) order hb hr0
  dsimp only at hr
  have hinj : Function.Injective (fun a : Fin order.length => (⟨order.getD a 0, hb _ (by
      rw [List.getD_eq_getElem _ _ a.2]; exact List.getElem_mem _)⟩ : Fin order.length)) := by
    intro a b h
    simp only [Fin.mk.injEq] at h
    rw [List.getD_eq_getElem _ _ a.2, List.getD_eq_getElem _ _ b.2] at h
    exact Fin.ext ((List.Nodup.getElem_inj_iff hnd).mp h)
  rw [hr]
  exact ⟨physical_submatrix _ hbar hph _ hinj, fun ν hν => spectrum_permute (Equiv.ofBijective _ (Finite.injective_iff_bijective.mp hinj)) _ ν hν⟩

/-! #### The reference sampler -/

/-- One draw of the reference sampler: the photon number of mode `mode`, at most `cutoff`, with probability proportional to its Born probability together with the
photon numbers `n` of the earlier modes and the heterodyne outcomes `α` of the later ones. -/
noncomputable def bornStep {M : ℕ} (lib : Lib) (ρ : (Fin M → ℕ) → (Fin M → ℕ) → ℂ) (α : ℕ → ℂ) (cutoff : ℕ) (n : ℕ → ℕ) (mode : ℕ) : Rand (ℕ → ℕ) := do
  let k ← chooseNormalised lib cutoff ((List.range (cutoff + 1)).map fun k => outcomeDensity ρ (mode + 1) (Function.update n mode k) α)
  pure (Function.update n mode k)

/-- The reference sampler for the state with means `mu` and covariance matrix `T + W Wᵀ`, `T` the covariance matrix of a pure state, `C Cᵀ = T + 1`, ħ = 2:
draw the means `mu + W x` of a pure state, the outcomes `α` of the heterodyne detection of all its modes (quadratures `mu + W x + C y`), and then replace these one
mode after the other by photon numbers.  `ρ` gives the density matrix of the pure state with given means; `inv` puts the modes in the order of the caller. -/
noncomputable def bornSampler {M : ℕ} (lib : Lib) (mu : ℕ → ℝ) (W C : RArr) (ρ : (ℕ → ℝ) → (Fin M → ℕ) → (Fin M → ℕ) → ℂ) (inv : List ℕ) (cutoff maxPhotons : ℕ) :
    Rand (Option (List ℕ)) := do
  let x ← normal lib
  let mean : ℕ → ℝ := fun i => mu i + ∑ j ∈ Finset.range (2 * M), W i j * x j
  let y ← normal lib
  let het : ℕ → ℝ := fun i => mean i + ∑ j ∈ Finset.range (2 * M), C i j * y j
  let α : ℕ → ℂ := fun j => amp M het j / 2
  let n ← (List.range M).foldlM (bornStep lib (ρ mean) α cutoff) fun _ => 0
  let pattern := inv.map n
  if pattern.getLastD 0 = cutoff then pure none
  else if maxPhotons < pattern.sum then pure none
  else pure (some pattern)

theorem chooseNormalised_scale (lib : Lib) (cutoff : ℕ) (w : List ℝ) (c : ℝ) (hc : c ≠ 0) :
    chooseNormalised lib cutoff (w.map fun x => c * x) = chooseNormalised lib cutoff w := by
  unfold chooseNormalised
  have hs : (w.map fun x => c * x).sum = c * w.sum := by
    have := List.sum_map_mul_left w id c
    simpa using this
  rw [hs, List.map_map]
  have h1 : (c * w.sum = 0) ↔ (w.sum = 0) := by simp [hc]
  have h2 : ((fun x => x / (c * w.sum)) ∘ fun x => c * x) = fun x => x / w.sum := by
    funext x
    simp only [Function.comp]
    rw [mul_div_mul_left _ _ hc]
  simp only [h1, h2]

theorem lift_bind {α β : Type} (a : α) (f : α → Rand β) : (Smp.lift (Except.ok a) >>= f) = f a := rfl

theorem hafnianStep_born {M : ℕ} (lib : Lib) (B : CArr) (γ : ℕ → ℂ) (hB : ∀ i < M, ∀ j < M, B i j = B j i) (e : ℂ) (he : e ≠ 0) (ψ : (Fin M → ℕ) → ℂ)
    (hψ : ∀ a, ψ a = e * ((starRingEnd ℂ) (lh γ B (repeatedIndices (List.ofFn a))) / (Real.sqrt (∏ i, ((a i).factorial : ℝ)) : ℝ)))
    (het : ℕ → ℂ) (cutoff : ℕ) (hc : 1 ≤ cutoff) (g : ℕ → ℂ) (n : ℕ → ℕ) (mode : ℕ) (hm : mode < M)
    (hg : ∀ i < M, g i - het mode * B i mode = gammaRest B γ het (mode + 1) M i) :
    Smp.hafnianStep lib B het cutoff (g, n) mode = (do
      let n' ← bornStep lib (fun i j => ψ i * (starRingEnd ℂ) (ψ j)) het cutoff n mode
      pure (fun i => g i - het mode * B i mode, n')) := by
  obtain ⟨r, hr⟩ : ∃ r, M = (mode + 1) + r := ⟨M - (mode + 1), by omega⟩
  unfold Smp.hafnianStep bornStep
  dsimp only
  rw [loopHafnianBatch_lh powertrace_PTSpec mode B _ (fun i hi j hj => hB i (by omega) j (by omega)) _ (by simp) cutoff true (Or.inr hc), lift_bind]
  set P : ℝ := ∏ i : Fin mode, ((n i).factorial : ℝ) with hP
  have hPpos : 0 < P := by rw [hP]; positivity
  set c := densConst B γ het e (mode + 1) r / P with hcdef
  have hcpos : 0 < c := div_pos (densConst_pos B γ het e he (mode + 1) r) hPpos
  have hw : ((List.range (cutoff + 1)).map fun k => outcomeDensity (fun i j => ψ i * (starRingEnd ℂ) (ψ j)) (mode + 1) (Function.update n mode k) het) =
      (weights cutoff ((List.range (cutoff + 1)).map fun k => lh (fun i => g i - het mode * B i mode) B
        (repeatedIndices ((List.range mode).map n ++ [k])))).map fun x => c * x := by
    unfold weights
    rw [List.map_map]
    apply List.map_congr_left
    intro k hk
    rw [pure_outcome hr B γ hB e ψ hψ (Function.update n mode k) het]
    have e1 : (List.range (mode + 1)).map (Function.update n mode k) = (List.range mode).map n ++ [k] := by
      rw [List.range_succ, List.map_append]
      congr 1
      · apply List.map_congr_left
        intro i hi
        rw [Function.update_of_ne (by have := List.mem_range.mp hi; omega)]
      · simp
    have e2 : (∏ i : Fin (mode + 1), ((Function.update n mode k i).factorial : ℝ)) = P * k.factorial := by
      rw [Fin.prod_univ_castSucc, hP]
      congr 1
      · refine Finset.prod_congr rfl fun i _ => ?_
        rw [Function.update_of_ne (by simp; omega)]
        rfl
      · simp
    have e3 : lh (gammaRest B γ het (mode + 1) M) B (repeatedIndices ((List.range mode).map n ++ [k])) =
        lh (fun i => g i - het mode * B i mode) B (repeatedIndices ((List.range mode).map n ++ [k])) := by
      refine lh_congr (fun i hi => (hg i ?_).symm) fun _ _ _ _ => rfl
      have := repeatedIndices_lt hi
      simp at this
      omega
    rw [e1, e2, e3]
    simp only [Function.comp]
    rw [List.getD_eq_getElem _ _ (by simpa using List.mem_range.mp hk), List.getElem_map, List.getElem_range, hcdef]
    have hf : ((k.factorial : ℕ) : ℝ) ≠ 0 := by positivity
    field_simp
  rw [hw, chooseNormalised_scale _ _ _ _ hcpos.ne']
  simp only [bind_assoc, pure_bind]

theorem hafnianFold_born {M : ℕ} (lib : Lib) (B : CArr) (γ : ℕ → ℂ) (hB : ∀ i < M, ∀ j < M, B i j = B j i) (e : ℂ) (he : e ≠ 0) (ψ : (Fin M → ℕ) → ℂ)
    (hψ : ∀ a, ψ a = e * ((starRingEnd ℂ) (lh γ B (repeatedIndices (List.ofFn a))) / (Real.sqrt (∏ i, ((a i).factorial : ℝ)) : ℝ)))
    (het : ℕ → ℂ) (cutoff : ℕ) (hc : 1 ≤ cutoff) (g : ℕ → ℂ) (hg : ∀ i < M, g i = gammaRest B γ het 0 M i) (m : ℕ) (hm : m ≤ M) :
    (List.range m).foldlM (Smp.hafnianStep lib B het cutoff) (g, fun _ => 0) = (do
      let n ← (List.range m).foldlM (bornStep lib (fun i j => ψ i * (starRingEnd ℂ) (ψ j)) het cutoff) fun _ => 0
      pure (fun i => g i - ∑ j ∈ Finset.range m, het j * B i j, n)) := by
  induction m with
  | zero => simp
  | succ m ih =>
    rw [List.range_succ, List.foldlM_append, List.foldlM_append, ih (by omega), bind_assoc, bind_assoc]
    refine bind_congr fun n => ?_
    rw [pure_bind, List.foldlM_cons, List.foldlM_cons]
    simp only [List.foldlM_nil]
    rw [hafnianStep_born lib B γ hB e he ψ hψ het cutoff hc _ n m (by omega)]
    · rw [bind_assoc, bind_assoc]
      refine bind_congr fun n' => ?_
      rw [pure_bind, pure_bind]
      congr 2
      funext i
      rw [Finset.sum_range_succ]
      ring
    · intro i hi
      rw [hg i hi]
      unfold gammaRest
      rw [← Finset.sum_Ico_consecutive (fun j => B i j * het j) (Nat.zero_le (m + 1)) (by omega : m + 1 ≤ M), Finset.range_eq_Ico,
        Finset.sum_Ico_succ_top (Nat.zero_le m)]
      have : ∑ j ∈ Finset.Ico 0 m, het j * B i j = ∑ j ∈ Finset.Ico 0 m, B i j * het j := Finset.sum_congr rfl fun _ _ => mul_comm _ _
      rw [this]
      ring

theorem muToAlpha_two (M : ℕ) (v : ℕ → ℝ) : muToAlpha (2 * M) v 2 = fun j => amp M v j / 2 := by
  funext j
  unfold muToAlpha
  have h1 : Real.sqrt (2 * 2) = 2 := by rw [show (2 : ℝ) * 2 = 2 ^ 2 by norm_num]; exact Real.sqrt_sq (by norm_num)
  have h2 : 2 * M / 2 = M := by omega
  rw [h1, h2]
  congr 1
  apply Complex.ext <;> simp [amp]

/-- The program of `generate_hafnian_sample` after the order of the modes is known, and the pure state is chosen. -/
theorem hafnianPrepare_ok (lib : Lib) (s : GState ℝ) (M : ℕ) (hs : s.len = 2 * M) (T W C : RArr) (B : CArr) (hT : decomposeCov lib (2 * M) s.cov 2 = .ok (T, W))
    (hC : lib.chol (2 * M) (fun i j => T i j + eye i j) = .ok C) (hB : Amat M T 2 = .ok B) :
    hafnianPrepare lib s 2 = (do
      let x ← normal lib
      let y ← normal lib
      let mean : ℕ → ℝ := fun i => s.mu i + ∑ j ∈ Finset.range (2 * M), W i j * x j
      let het : ℕ → ℝ := fun i => mean i + ∑ j ∈ Finset.range (2 * M), C i j * y j
      pure (B, (fun j => amp M het j / 2), fun i => (starRingEnd ℂ) (amp M mean i / 2) + dot M (B i) fun j => amp M het j / 2 - amp M mean j / 2)) := by
  have hM : 2 * M / 2 = M := by omega
  unfold hafnianPrepare
  simp only [hs, hM, hT, lift_bind, hC, hB, muToAlpha_two, dot_sum]

theorem phase_factor (M : ℕ) (C T : RArr) (h : toMatrix (2 * M) (2 * M) C * (toMatrix (2 * M) (2 * M) C)ᵀ = toMatrix (2 * M) (2 * M) fun i j => T i j + eye i j) :
    phase M M C * (phase M M C)ᵀ = phase M M T + 1 := by
  have h1 : phase M M (mmul (2 * M) C (tr C)) = phase M M fun i j => T i j + eye i j := by
    rw [phase_toMatrix, phase_toMatrix, toMatrix_mmul, toMatrix_tr, h]
  rw [phase_mmul, phase_tr] at h1
  rw [h1, ← phase_eye]
  rfl

/-- C68: the same factors `T`, `W`, `C` and order of the modes serve for all sequences of random numbers. -/
theorem generateHafnianSample_born_all (lib : Lib) (hl : GoodSampler lib) (s : GState ℝ) (M : ℕ) (hM : M ≠ 0) (hs : s.len = 2 * M) (hph : Physical (phase M M s.cov) 2)
    (hsp : ∀ ν, SympSpectrum (phase M M s.cov) ν → ∀ i, ν i = 1 ∨ 1 + 1e-10 ≤ ν i) (cutoff : ℕ) (hc : 1 ≤ cutoff) (maxPhotons : ℕ) :
    ∃ (order inv : List ℕ) (means : List ℝ) (r : GState ℝ) (T W C : RArr),
      photonNumberMeanVector s 2 = .ok means ∧ order.Perm (List.range M) ∧
      (order.Pairwise fun a b => means.getD a 0 < means.getD b 0 ∨ (means.getD a 0 = means.getD b 0 ∧ a < b)) ∧
      inv.length = M ∧ inv.Perm (List.range M) ∧ (∀ i < M, order.getD (inv.getD i 0) 0 = i) ∧ IsReduction M s order r ∧
      Physical (phase M M T) 2 ∧ (phase M M T).det = 1 ∧ phase M M W * (phase M M W)ᵀ = phase M M r.cov - phase M M T ∧
      phase M M C * (phase M M C)ᵀ = phase M M T + 1 ∧
      ∀ (nf : ℕ → ℕ → ℝ) (uf : ℕ → ℝ) (ρ : (ℕ → ℝ) → (Fin M → ℕ) → (Fin M → ℕ) → ℂ), (∀ mu, IsFockMatrix M mu T 2 (ρ mu)) →
        generateHafnianSample { lib with normal := nf, uniform := uf } s 2 cutoff maxPhotons =
          bornSampler { lib with normal := nf, uniform := uf } r.mu W C ρ inv cutoff maxPhotons := by
  obtain ⟨order, means, ho, hmeans, hperm, hsorted⟩ := photonMeansOrder_correct s M hs
  obtain ⟨inv, hi1, hi2, hi3, -, -⟩ := invertPermutation_correct (fun _ => 0) M order hperm
  obtain ⟨hph', hsp'⟩ := reorder_physical s M hs order hperm 2 hph
  have hred := reorder_reduction s M hs order hperm
  have hlen : order.length = M := by rw [hperm.length_eq, List.length_range]
  have hilen : inv.length = M := by rw [hi2.length_eq, List.length_range]
  set r := Smp.reorder s order with hr
  have hrl : r.len = 2 * M := by rw [hred.len, hlen]
  obtain ⟨T, W, hT, hTph, hTdet, hW⟩ := decomposeCov_correct lib hl M r.cov 2 (by norm_num) hph' fun ν hν i => by
    have := hsp ν (hsp' ν hν) i
    norm_num at this ⊢
    exact this
  have hTdet' : (phase M M T).det = 1 := by
    have h := hTdet
    rw [show (2 : ℝ) / 2 = 1 by norm_num, one_smul] at h
    exact h
  have hpd : (toMatrix (2 * M) (2 * M) fun i j => T i j + eye i j).PosDef := by
    rw [toMatrix_add, toMatrix_eye]
    exact ((phase_posDef M T).mp (physical_posDef _ 2 (by norm_num) hTph)).add Matrix.PosDef.one
  obtain ⟨C, hC, hCC⟩ := hl.chol (2 * M) _ hpd
  refine ⟨order, inv, means, r, T, W, C, hmeans, hperm, hsorted, hilen, hi2, ?_, hred, hTph, hTdet', hW, phase_factor M C T hCC, fun nf uf ρ hρ => ?_⟩
  · intro i hi
    have h := congrArg (fun l => l.getD i 0) hi3
    rw [List.getD_eq_getElem _ _ (by simp; omega), List.getElem_map, List.getD_eq_getElem (List.range M) _ (by simpa using hi), List.getElem_range] at h
    rw [List.getD_eq_getElem inv _ (by omega)]
    exact h
  · obtain ⟨B, -, hB, -⟩ := pure_setup (fun _ => 0) (by norm_num : (0 : ℝ) < 2) hTph hTdet
    have hMs : s.len / 2 = M := by omega
    unfold generateHafnianSample bornSampler
    dsimp only
    rw [hMs, if_neg hM, ho, lift_bind, hi1, lift_bind, ← hr, hafnianPrepare_ok { lib with normal := nf, uniform := uf } r M hrl T W C B hT hC hB]
    simp only [bind_assoc, pure_bind]
    refine bind_congr fun x => bind_congr fun y => ?_
    set mean : ℕ → ℝ := fun i => r.mu i + ∑ j ∈ Finset.range (2 * M), W i j * x j with hmean
    set α : ℕ → ℂ := fun j => amp M (fun i => mean i + ∑ j ∈ Finset.range (2 * M), C i j * y j) j / 2 with hα
    obtain ⟨B', γ, hB', hBs, hγ, -, hF⟩ := pure_setup mean (by norm_num : (0 : ℝ) < 2) hTph hTdet
    obtain rfl : B = B' := Except.ok.inj (hB.symm.trans hB')
    rw [fockMatrix_unique (hρ mean) hF]
    have hβ : ∀ k < M, complexToReal M mean 2 k = amp M mean k / 2 := by
      intro k hk
      rw [(complexToReal_entries M mean 2 k hk).1, show (2 : ℝ) * 2 = 2 ^ 2 by norm_num, Real.sqrt_sq (by norm_num)]
      norm_num
    rw [hafnianFold_born { lib with normal := nf, uniform := uf } B γ (fun i hi j hj => hBs i (by omega) j (by omega))
      (Complex.exp ((starRingEnd ℂ) (pureExp M mean 2 B)) / ((Real.sqrt (Real.sqrt (Wmat M T 2).det) : ℝ) : ℂ)) ?_ (psiFn M mean T 2 B γ) ?_ α cutoff hc _ ?_ M le_rfl]
    · simp only [bind_assoc, pure_bind]
    · refine div_ne_zero (Complex.exp_ne_zero _) ?_
      rw [Complex.ofReal_ne_zero]
      exact (Real.sqrt_pos.mpr (Real.sqrt_pos.mpr (det_W_pos hTph (by norm_num)))).ne'
    · intro a
      unfold psiFn
      push_cast
      rw [div_mul_div_comm]
    · intro i hi
      unfold gammaRest
      rw [hγ i hi, hβ i hi, dot_sum, dot_sum, ← Finset.range_eq_Ico, sub_add, ← Finset.sum_sub_distrib, sub_eq_add_neg, ← Finset.sum_neg_distrib]
      congr 1
      refine Finset.sum_congr rfl fun j hj => ?_
      rw [hβ j (Finset.mem_range.mp hj)]
      ring

/-- C68: `generate_hafnian_sample` (ħ = 2) is the reference sampler, for every sequence of random numbers: with the modes in the order of their mean photon numbers
(state `r`), the covariance matrix is that of a pure state `T` plus a classical part `W Wᵀ`; the pure state with means drawn from the classical part is measured by
heterodyne detection (covariance matrix `(T + 1)` of the outcomes), and then each mode in turn is given a photon number with its Born probability given the photon
numbers of the earlier modes and the heterodyne outcomes of the later ones, cut off at `cutoff`.  The draw is rejected exactly if the last entry is the cutoff or
there are more than `max_photons` photons. -/
theorem generateHafnianSample_born (lib : Lib) (hl : GoodSampler lib) (s : GState ℝ) (M : ℕ) (hM : M ≠ 0) (hs : s.len = 2 * M) (hph : Physical (phase M M s.cov) 2)
    (hsp : ∀ ν, SympSpectrum (phase M M s.cov) ν → ∀ i, ν i = 1 ∨ 1 + 1e-10 ≤ ν i) (cutoff : ℕ) (hc : 1 ≤ cutoff) (maxPhotons : ℕ) :
    ∃ (order inv : List ℕ) (means : List ℝ) (r : GState ℝ) (T W C : RArr),
      photonNumberMeanVector s 2 = .ok means ∧ order.Perm (List.range M) ∧
      (order.Pairwise fun a b => means.getD a 0 < means.getD b 0 ∨ (means.getD a 0 = means.getD b 0 ∧ a < b)) ∧
      inv.length = M ∧ (∀ i < M, order.getD (inv.getD i 0) 0 = i) ∧ IsReduction M s order r ∧
      Physical (phase M M T) 2 ∧ (phase M M T).det = 1 ∧ phase M M W * (phase M M W)ᵀ = phase M M r.cov - phase M M T ∧
      phase M M C * (phase M M C)ᵀ = phase M M T + 1 ∧
      ∀ ρ : (ℕ → ℝ) → (Fin M → ℕ) → (Fin M → ℕ) → ℂ, (∀ mu, IsFockMatrix M mu T 2 (ρ mu)) →
        generateHafnianSample lib s 2 cutoff maxPhotons = bornSampler lib r.mu W C ρ inv cutoff maxPhotons := by
  obtain ⟨order, inv, means, r, T, W, C, h1, h2, h3, h4, -, h5, h6, h7, h8, h9, h10, h11⟩ := generateHafnianSample_born_all lib hl s M hM hs hph hsp cutoff hc maxPhotons
  exact ⟨order, inv, means, r, T, W, C, h1, h2, h3, h4, h5, h6, h7, h8, h9, h10, h11 lib.normal lib.uniform⟩

/-! #### The density of the outcomes, when there are only photon numbers or only heterodyne outcomes -/

/-- photon numbers in all modes: the diagonal entries of the density matrix -/
theorem outcomeDensity_all {N : ℕ} (ρ : (Fin N → ℕ) → (Fin N → ℕ) → ℂ) (n : ℕ → ℕ) (α : ℕ → ℂ) :
    outcomeDensity ρ N n α = (ρ (fun i => n i) fun i => n i).re := by
  have h : ∀ i : Fin N → ℕ, mixAmp N n α i = if i = fun k : Fin N => n k then 1 else 0 := by
    intro i
    unfold mixAmp
    split_ifs with hi
    · exact Finset.prod_eq_one fun k _ => by rw [if_pos k.2, if_pos (congrFun hi k)]
    · obtain ⟨k, hk⟩ := Function.ne_iff.mp hi
      exact Finset.prod_eq_zero (Finset.mem_univ k) (by rw [if_pos k.2, if_neg hk])
  unfold outcomeDensity
  rw [tsum_eq_single ((fun i => n i, fun i => n i) : (Fin N → ℕ) × (Fin N → ℕ))]
  · simp [h]
  · rintro ⟨a, b⟩ hab
    simp only [h]
    by_cases ha : a = fun k : Fin N => n k
    · have hb : b ≠ fun k : Fin N => n k := fun hb => hab (by rw [ha, hb])
      simp [hb]
    · simp [ha]

/-- heterodyne outcomes in all modes: the Husimi function -/
theorem outcomeDensity_none {N : ℕ} {mu : ℕ → ℝ} {cov : ℕ → ℕ → ℝ} {hbar : ℝ} (ρ : (Fin N → ℕ) → (Fin N → ℕ) → ℂ) (h : IsFockMatrix N mu cov hbar ρ)
    (n : ℕ → ℕ) (α : ℕ → ℂ) : outcomeDensity ρ 0 n α = husimiFn N mu cov hbar fun k => α k := by
  have h1 : ∀ i : Fin N → ℕ, mixAmp 0 n α i = ((∏ k : Fin N, Real.exp (-Complex.normSq (α k) / 2) : ℝ) : ℂ) * cohAmp (fun k : Fin N => α k) i := by
    intro i
    unfold mixAmp cohAmp
    push_cast
    rw [← Finset.prod_mul_distrib]
    exact Finset.prod_congr rfl fun k _ => by rw [if_neg (by omega)]
  have h2 := (h fun k => α k).mul_left ((((∏ k : Fin N, Real.exp (-Complex.normSq (α k) / 2)) ^ 2 : ℝ)) : ℂ)
  unfold outcomeDensity
  have h3 : ∀ p : (Fin N → ℕ) × (Fin N → ℕ), mixAmp 0 n α p.1 * ρ p.1 p.2 * (starRingEnd ℂ) (mixAmp 0 n α p.2) =
      (((∏ k : Fin N, Real.exp (-Complex.normSq (α k) / 2)) ^ 2 : ℝ) : ℂ) *
        (cohAmp (fun k : Fin N => α k) p.1 * ρ p.1 p.2 * (starRingEnd ℂ) (cohAmp (fun k : Fin N => α k) p.2)) := by
    intro p
    rw [h1, h1, map_mul, Complex.conj_ofReal]
    push_cast
    ring
  rw [tsum_congr h3, h2.tsum_eq, ← Complex.ofReal_mul, Complex.ofReal_re, ← mul_assoc]
  have h4 : (∏ k : Fin N, Real.exp (-Complex.normSq (α k) / 2)) ^ 2 * Real.exp (∑ k : Fin N, Complex.normSq (α k)) = 1 := by
    rw [← Real.exp_sum, ← Real.exp_nat_mul, ← Real.exp_add]
    have : ((2 : ℕ) : ℝ) * ∑ k : Fin N, -Complex.normSq (α k) / 2 + ∑ k : Fin N, Complex.normSq (α k) = 0 := by
      rw [Finset.mul_sum, ← Finset.sum_add_distrib]
      exact Finset.sum_eq_zero fun k _ => by push_cast; ring
    rw [this, Real.exp_zero]
  rw [h4, one_mul]

/-! #### An entangled state meets the hypotheses -/

theorem goodSampler_exists (lib : Lib) : ∃ lib', GoodSampler lib' ∧ lib'.normal = lib.normal ∧ lib'.uniform = lib.uniform := by
  obtain ⟨sq, hsq⟩ := sqrtm_exists
  obtain ⟨sc, hsc⟩ := schur_exists
  have hch : ∃ chol, FactorContract chol := by
    classical
    refine ⟨fun n A => .ok (sq n A), fun n A hA => ⟨_, rfl, ?_⟩⟩
    have h := hsq n A hA
    have hs : (toMatrix n n (sq n A))ᵀ = toMatrix n n (sq n A) := by
      have := h.1.1
      rwa [IsHermitian, conjTranspose_eq_transpose_of_trivial] at this
    rw [hs, h.2]
  obtain ⟨ch, hch⟩ := hch
  exact ⟨{ lib with sqrtm := sq, schur := sc, close := fun _ _ => true, chol := ch }, ⟨hsq, hsc, fun _ => rfl, hch⟩, rfl, rfl⟩

/-- a two-mode squeezed state with displacements: all symplectic eigenvalues are 1 -/
example (mu : ℕ → ℝ) : ∃ lib, GoodSampler lib ∧ ∃ (inv : List ℕ) (r : GState ℝ) (T W C : RArr), Physical (phase 2 2 T) 2 ∧ inv.length = 2 ∧
    ∀ ρ : (ℕ → ℝ) → (Fin 2 → ℕ) → (Fin 2 → ℕ) → ℂ, (∀ mu, IsFockMatrix 2 mu T 2 (ρ mu)) →
      generateHafnianSample lib { len := 4, mu := mu, cov := tmsExample } 2 5 30 = bornSampler lib r.mu W C ρ inv 5 30 := by
  obtain ⟨lib, hl, -⟩ := goodSampler_exists exampleLib
  have hph : Physical (phase 2 2 tmsExample) 2 := (physical_iff_spectrum _ 2 (by norm_num) _ tmsExample_spec).mpr fun _ => by norm_num
  obtain ⟨order, inv, means, r, T, W, C, -, -, -, h1, -, -, h2, -, -, -, h3⟩ := generateHafnianSample_born lib hl { len := 4, mu := mu, cov := tmsExample } 2
    (by norm_num) rfl hph (fun ν hν i => by
      left
      have hp := sympSpectrum_unique _ _ _ hν tmsExample_spec
      have hm : ν i ∈ List.ofFn fun _ : Fin 2 => (1 : ℝ) := hp.mem_iff.mp (List.mem_ofFn.mpr ⟨i, rfl⟩)
      obtain ⟨j, hj⟩ := List.mem_ofFn.mp hm
      exact hj.symm) 5 (by norm_num) 30
  exact ⟨lib, hl, inv, r, T, W, C, h2, h1, h3⟩

end Verif.Props
