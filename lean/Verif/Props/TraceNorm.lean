/-
C102: `log_negativity` is the logarithm of the trace norm of the partially transposed density matrix.
-/
import Verif.Props.SignedMixture
import Verif.Spec.TraceNorm

set_option linter.unusedSectionVars false
set_option linter.unusedSimpArgs false

namespace Verif.Props
open Verif.Model Verif.Model.Symp Verif.Model.Conv Verif.Model.Dec Verif.Model.Ent Verif.Spec Verif.Lemmas Verif.Lemmas.Symp Verif.Lemmas.Heis Verif.Lemmas.FPar Matrix

section unique
variable {I : Type} [DecidableEq I] {M : I → I → ℂ} {p q : I → ℝ} {V W : I → I → ℂ}

theorem signed_quad (hV : IsUnitaryFock V) (hW : IsUnitaryFock W) (hp : Summable fun m => |p m|) (hq : Summable fun m => |q m|)
    (h : ∀ i j, HasSum (fun m => ((p m : ℝ) : ℂ) * (V i m * (starRingEnd ℂ) (V j m))) (M i j)) (h' : ∀ i j, HasSum (fun m => ((q m : ℝ) : ℂ) * (W i m * (starRingEnd ℂ) (W j m))) (M i j)) (m : I) :
    p m = ∑' n, q n * ‖∑' x, (starRingEnd ℂ) (V x m) * W x n‖ ^ 2 := by
  have hVa := adjoint_unitary hV
  have e1 := signed_rows₂ (u := fun x => (starRingEnd ℂ) (V x m)) (v := fun x => (starRingEnd ℂ) (V x m)) (fun b => row_col hVa hV m b) (fun b => row_col hVa hV m b) p hp M h
  have e2 := signed_rows₂ (u := fun x => (starRingEnd ℂ) (V x m)) (v := fun x => (starRingEnd ℂ) (V x m)) (fun b => row_col hVa hW m b) (fun b => row_col hVa hW m b) q hq M h'
  have e3 := e1.unique e2
  rw [tsum_eq_single m fun b hb => by rw [tsum_adj hV m b, if_neg (Ne.symm hb)]; simp, tsum_adj hV m m, if_pos rfl, map_one, mul_one, mul_one] at e3
  apply Complex.ofReal_injective
  rw [e3, Complex.ofReal_tsum]
  refine tsum_congr fun n => ?_
  rw [Complex.mul_conj, Complex.normSq_eq_norm_sq]
  push_cast; rfl

theorem traceNorm_le (hV : IsUnitaryFock V) (hW : IsUnitaryFock W) {s t : ℝ} (hp : HasSum (fun m => |p m|) s) (hq : HasSum (fun m => |q m|) t)
    (h : ∀ i j, HasSum (fun m => ((p m : ℝ) : ℂ) * (V i m * (starRingEnd ℂ) (V j m))) (M i j)) (h' : ∀ i j, HasSum (fun m => ((q m : ℝ) : ℂ) * (W i m * (starRingEnd ℂ) (W j m))) (M i j)) : s ≤ t := by
  obtain ⟨o1, o2⟩ := overlap_sum hV hW
  generalize hB : (fun m n => ‖∑' x, (starRingEnd ℂ) (V x m) * W x n‖ ^ 2) = B at *
  have hB' : ∀ m n, ‖∑' x, (starRingEnd ℂ) (V x m) * W x n‖ ^ 2 = B m n := fun m n => congr_fun (congr_fun hB m) n
  have hB0 : ∀ m n, 0 ≤ B m n := fun m n => by rw [← hB']; positivity
  have o1' : ∀ m, HasSum (fun n => B m n) 1 := fun m => (o1 m).congr_fun fun n => (hB' m n).symm
  have o2' : ∀ n, HasSum (fun m => B m n) 1 := fun n => (o2 n).congr_fun fun m => (hB' m n).symm
  have hx : ∀ n, HasSum (fun m => |q n| * B m n) (|q n|) := fun n => by
    have := (o2' n).mul_left (|q n|)
    rwa [mul_one] at this
  have hx2 : (fun n => ∑' m, |q n| * B m n) = fun n => |q n| := funext fun n => (hx n).tsum_eq
  have hsum : Summable fun y : I × I => |q y.1| * B y.2 y.1 := by
    refine (summable_prod_of_nonneg (f := fun y : I × I => |q y.1| * B y.2 y.1) fun y => mul_nonneg (abs_nonneg _) (hB0 _ _)).mpr ⟨fun m => (hx m).summable, ?_⟩
    show Summable (fun n => ∑' m, |q n| * B m n)
    rw [hx2]
    exact hq.summable
  have hT := hsum.hasSum
  have e1 : HasSum (fun n => |q n|) (∑' y : I × I, |q y.1| * B y.2 y.1) := hT.prod_fiberwise (g := fun n => |q n|) hx
  rw [e1.unique hq] at hT
  have hT' := (Equiv.prodComm I I).hasSum_iff.mpr hT
  have hrow : ∀ m, Summable fun n => |q n| * B m n := fun m => hT'.summable.prod_factor m
  have e2 : HasSum (fun m => ∑' n, |q n| * B m n) t := hT'.prod_fiberwise fun m => (hrow m).hasSum
  refine hasSum_le (fun m => ?_) hp e2
  rw [signed_quad hV hW hp.summable hq.summable h h' m]
  simp only [hB']
  have habs : Summable fun n => |q n * B m n| := (hrow m).congr fun n => by rw [abs_mul, abs_of_nonneg (hB0 m n)]
  calc |∑' n, q n * B m n| ≤ ∑' n, |q n * B m n| := by
        have := norm_tsum_le_tsum_norm (f := fun n => q n * B m n) habs
        simpa only [Real.norm_eq_abs] using this
    _ = ∑' n, |q n| * B m n := tsum_congr fun n => by rw [abs_mul, abs_of_nonneg (hB0 m n)]

/-- the trace norm is determined by the matrix -/
theorem hasTraceNorm_unique {s t : ℝ} (h : HasTraceNorm M s) (h' : HasTraceNorm M t) : s = t := by
  obtain ⟨p, V, hV, h1, h2⟩ := h
  obtain ⟨q, W, hW, h3, h4⟩ := h'
  exact le_antisymm (traceNorm_le hV hW h2 h4 h1 h3) (traceNorm_le hW hV h4 h2 h3 h1)

end unique

variable {N : ℕ}

/-- exchange the occupation numbers of the modes in `A` -/
def swapModes (A : Finset (Fin N)) : (Fin N → ℕ) × (Fin N → ℕ) ≃ (Fin N → ℕ) × (Fin N → ℕ) where
  toFun x := (fun k => if k ∈ A then x.2 k else x.1 k, fun k => if k ∈ A then x.1 k else x.2 k)
  invFun x := (fun k => if k ∈ A then x.2 k else x.1 k, fun k => if k ∈ A then x.1 k else x.2 k)
  left_inv x := by
    refine Prod.ext ?_ ?_ <;> funext k <;> by_cases hk : k ∈ A <;> simp [hk]
  right_inv x := by
    refine Prod.ext ?_ ?_ <;> funext k <;> by_cases hk : k ∈ A <;> simp [hk]

/-- the amplitudes with the modes in `A` conjugated -/
noncomputable def conjModes (A : Finset (Fin N)) (α : Fin N → ℂ) (k : Fin N) : ℂ := if k ∈ A then (starRingEnd ℂ) (α k) else α k

theorem conjModes_quad (A : Finset (Fin N)) (hbar : ℝ) (α : Fin N → ℂ) : cohQuad hbar (conjModes A α) = diagonal (ptSign A) *ᵥ cohQuad hbar α := by
  funext p
  rw [mulVec_diagonal]
  rcases p with k | k <;> by_cases hk : k ∈ A <;> simp [cohQuad, conjModes, ptSign, hk]

theorem conjModes_amp (A : Finset (Fin N)) (α : Fin N → ℂ) (x : (Fin N → ℕ) × (Fin N → ℕ)) :
    cohAmp (conjModes A α) x.1 * (starRingEnd ℂ) (cohAmp (conjModes A α) x.2) = cohAmp α (swapModes A x).1 * (starRingEnd ℂ) (cohAmp α (swapModes A x).2) := by
  simp only [cohAmp, map_prod, ← Finset.prod_mul_distrib]
  refine Finset.prod_congr rfl fun k _ => ?_
  by_cases hk : k ∈ A
  · simp only [conjModes, swapModes, Equiv.coe_fn_mk, if_pos hk, map_div₀, map_pow, Complex.conj_conj, Complex.conj_ofReal]
    ring
  · simp only [conjModes, swapModes, Equiv.coe_fn_mk, if_neg hk]

/-- **C102** the partial transpose of a Gaussian state is Gaussian: the momenta of the transposed modes are reversed -/
theorem fockTranspose_gaussian (A : Finset (Fin N)) (mu mu' : ℕ → ℝ) (cov cov' : ℕ → ℕ → ℝ) (hbar : ℝ) (hmu : phaseVec N mu' = diagonal (ptSign A) *ᵥ phaseVec N mu)
    (hcov : phase N N cov' = partialTranspose A (phase N N cov)) (ρ : (Fin N → ℕ) → (Fin N → ℕ) → ℂ) (hρ : IsFockMatrix N mu cov hbar ρ) : IsFockMatrix N mu' cov' hbar (fockTranspose A ρ) := by
  intro α
  have h := hρ (conjModes A α)
  have hD := ptSign_diag_sq A
  set D := diagonal (ptSign A) with hDd
  have hDt : Dᵀ = D := diagonal_transpose _
  have hDi : D⁻¹ = D := inv_eq_right_inv hD
  have e1 : ∑ k, Complex.normSq (conjModes A α k) = ∑ k, Complex.normSq (α k) := Finset.sum_congr rfl fun k _ => by
    rw [conjModes]; split_ifs <;> simp
  have e2 : husimiFn N mu cov hbar (conjModes A α) = husimiFn N mu' cov' hbar α := by
    unfold husimiFn
    dsimp only
    have hW : phase N N cov' + (hbar / 2) • 1 = D * (phase N N cov + (hbar / 2) • 1) * D := by
      rw [hcov, partialTranspose_eq, Matrix.mul_add, Matrix.add_mul, Matrix.mul_smul, Matrix.smul_mul, Matrix.mul_one, hD]
    rw [hW, hmu, conjModes_quad, ← hDd]
    generalize phase N N cov + (hbar / 2) • 1 = W
    have hd : D *ᵥ cohQuad hbar α - phaseVec N mu = D *ᵥ (cohQuad hbar α - D *ᵥ phaseVec N mu) := by
      rw [mulVec_sub, mulVec_mulVec, hD, one_mulVec]
    rw [hd]
    generalize cohQuad hbar α - D *ᵥ phaseVec N mu = d
    have hdet : D.det * D.det = 1 := by rw [← det_mul, hD, det_one]
    congr 2
    · rw [Matrix.mul_inv_rev, Matrix.mul_inv_rev, hDi, ← mulVec_mulVec, ← mulVec_mulVec]
      congr 2
      rw [dotProduct_mulVec d D, ← mulVec_transpose, hDt]
    · rw [← Matrix.smul_mul, ← Matrix.mul_smul, det_mul, det_mul]
      linear_combination (-((1 / hbar) • W).det) * hdet
  rw [e1, e2] at h
  rw [← (swapModes A).hasSum_iff]
  refine h.congr_fun fun x => ?_
  have h2 := conjModes_amp A α x
  have h3 : fockTranspose A ρ (swapModes A x).1 (swapModes A x).2 = ρ x.1 x.2 := by
    rw [fockTranspose]
    have := (swapModes A).left_inv x
    exact congrArg (fun y : (Fin N → ℕ) × (Fin N → ℕ) => ρ y.1 y.2) this
  simp only [Function.comp_apply]
  rw [h3, mul_right_comm, ← h2, mul_right_comm]

/-- the absolute values of the eigenvalues of a Gaussian matrix -/
theorem gaussian_traceNorm (mu : ℕ → ℝ) (cov : ℕ → ℕ → ℝ) (hbar : ℝ) (hh : 0 < hbar) (ν : Fin N → ℝ) (hν : SympSpectrum ((2 / hbar) • phase N N cov) ν)
    (ρ : (Fin N → ℕ) → (Fin N → ℕ) → ℂ) (hρ : IsFockMatrix N mu cov hbar ρ) : HasTraceNorm ρ (∏ k, max 1 (ν k)⁻¹) := by
  obtain ⟨hν0, T, hT, hTν⟩ := hν
  have hcov : phase N N cov = (hbar / 2) • (T * diagonal (Sum.elim ν ν) * Tᵀ) := by
    rw [← hTν, smul_smul]
    have : hbar / 2 * (2 / hbar) = 1 := by field_simp
    rw [this, one_smul]
  obtain ⟨V, hV⟩ := gaussianUnitary_exists hT (fun k => complexToReal N mu hbar k)
  exact ⟨_, V, hV.unitary, gaussian_signed hT hV hbar hh ν hν0 mu cov hcov (mean_amp hh fun _ => rfl) ρ hρ, abs_weights_sum hν0⟩

/-- **C102** `log_negativity` returns `r` exactly if `e^r` is the trace norm of the partially transposed density matrix of the state, for all physical states and all displacements. -/
theorem logNegativity_traceNorm (eigvals : ℕ → RArr → ℕ → ℂ) (he : EigvalsContract eigvals) (close : ℝ → ℝ → Bool)
    (hc : ∀ x y, close x y = true ↔ x = y) (mu : ℕ → ℝ) (cov : RArr) (hbar : ℝ) (hh : 0 < hbar) (hph : Physical (phase N N cov) hbar) (a : ModesArg) (sp : Option PyInt) (l : List ℕ)
    (hl : getPartition a sp N = .ok l) (ρ : (Fin N → ℕ) → (Fin N → ℕ) → ℂ) (hρ : IsFockMatrix N mu cov hbar ρ) (r : ℝ) :
    logNegativity eigvals close 0 (2 * N) (2 * N) cov a sp hbar = .ok r ↔ HasTraceNorm (fockTranspose (modeSet l) ρ) (Real.exp r) := by
  obtain ⟨ν, hν⟩ := sympSpectrum_exists _ (partialTranspose_posDef (modeSet l) _ ((physical_posDef _ hbar hh hph).smul (show (0 : ℝ) < 2 / hbar by positivity)))
  rw [logNegativity_correct eigvals he close hc cov hbar hph a sp l hl ν hν]
  obtain ⟨mu', hmu'⟩ := exists_phaseVec (diagonal (ptSign (modeSet l)) *ᵥ phaseVec N mu)
  obtain ⟨cov', hcov'⟩ := exists_cov (partialTranspose (modeSet l) (phase N N cov))
  have hF := fockTranspose_gaussian (modeSet l) mu mu' cov cov' hbar hmu' hcov' ρ hρ
  rw [partialTranspose_smul, ← hcov'] at hν
  have hT := gaussian_traceNorm mu' cov' hbar hh ν hν _ hF
  have e : Real.exp (∑ i, max 0 (-Real.log (ν i))) = ∏ k, max 1 (ν k)⁻¹ := by
    rw [Real.exp_sum]
    refine Finset.prod_congr rfl fun k _ => ?_
    rw [Real.exp_monotone.map_max, Real.exp_zero, Real.exp_neg, Real.exp_log (hν.1 k)]
  rw [← e] at hT
  constructor
  · intro h
    rw [← Except.ok.inj h]; exact hT
  · intro h
    rw [Real.exp_injective (hasTraceNorm_unique hT h)]

/-- **C102** the criterion of the positive partial transpose: `log_negativity` is zero exactly if the partially transposed density matrix is a density matrix. -/
theorem logNegativity_ppt (eigvals : ℕ → RArr → ℕ → ℂ) (he : EigvalsContract eigvals) (close : ℝ → ℝ → Bool)
    (hc : ∀ x y, close x y = true ↔ x = y) (mu : ℕ → ℝ) (cov : RArr) (hbar : ℝ) (hh : 0 < hbar) (hph : Physical (phase N N cov) hbar) (a : ModesArg) (sp : Option PyInt) (l : List ℕ)
    (hl : getPartition a sp N = .ok l) (ρ : (Fin N → ℕ) → (Fin N → ℕ) → ℂ) (hρ : IsFockMatrix N mu cov hbar ρ) :
    logNegativity eigvals close 0 (2 * N) (2 * N) cov a sp hbar = .ok 0 ↔ ∃ p V, IsSpectral (fockTranspose (modeSet l) ρ) p V := by
  constructor
  · intro h
    obtain ⟨s, hs, -, h0⟩ := logNegativity_zero_iff eigvals he close hc cov hbar hh hph a sp l hl
    rw [h] at hs
    have hP := h0.mp (Except.ok.inj hs).symm
    obtain ⟨mu', hmu'⟩ := exists_phaseVec (diagonal (ptSign (modeSet l)) *ᵥ phaseVec N mu)
    obtain ⟨cov', hcov'⟩ := exists_cov (partialTranspose (modeSet l) (phase N N cov))
    exact gaussian_spectral mu' cov' hbar hh (hcov' ▸ hP) _ (fockTranspose_gaussian (modeSet l) mu mu' cov cov' hbar hmu' hcov' ρ hρ)
  · rintro ⟨p, V, h⟩
    rw [logNegativity_traceNorm eigvals he close hc mu cov hbar hh hph a sp l hl ρ hρ, Real.exp_zero]
    refine ⟨p, V, h.unitary, h.expand, h.total.congr_fun fun m => ?_⟩
    exact abs_of_nonneg (h.nonneg m)

/-- the trace norm of the partial transpose of a two-mode squeezed vacuum, with any displacement, is four -/
example (eigvals : ℕ → RArr → ℕ → ℂ) (he : EigvalsContract eigvals) (close : ℝ → ℝ → Bool) (hc : ∀ x y, close x y = true ↔ x = y) (mu : ℕ → ℝ) :
    ∃ ρ, IsFockMatrix 2 mu tmsExample 2 ρ ∧ HasTraceNorm (fockTranspose (modeSet [0]) ρ) 4 ∧ ¬ ∃ p V, IsSpectral (fockTranspose (modeSet [0]) ρ) p V := by
  have hph : Physical (phase 2 2 tmsExample) 2 := (physical_iff_spectrum _ 2 (by norm_num) _ tmsExample_spec).mpr fun _ => by norm_num
  obtain ⟨ρ, _, _, -, hρ, -⟩ := fock_gram (N := 2) mu (by norm_num) hph
  have h := logNegativity_tms eigvals he close hc
  have h1 := (logNegativity_traceNorm eigvals he close hc mu tmsExample 2 (by norm_num) hph .none (some (.int 1)) [0] (by decide) ρ hρ _).mp h
  rw [Real.exp_log (by norm_num)] at h1
  refine ⟨ρ, hρ, h1, fun h2 => ?_⟩
  have h3 := (logNegativity_ppt eigvals he close hc mu tmsExample 2 (by norm_num) hph .none (some (.int 1)) [0] (by decide) ρ hρ).mpr h2
  have h4 := Except.ok.inj (h.symm.trans h3)
  have := Real.log_pos (show (1 : ℝ) < 4 by norm_num)
  linarith

end Verif.Props
