/-
C88: the law of the samples of `generate_thermal_samples`.
-/
import Verif.Props.SamplerLaws
import Verif.Props.PermanentOther

set_option linter.style.longLine false
set_option linter.unusedVariables false

namespace Verif.Props
open Verif.Model Verif.Model.Symp Verif.Model.Conv Verif.Model.Disting Verif.Spec Verif.Lemmas Verif.Lemmas.Symp Verif.Lemmas.Heis Verif.Lemmas.FPar Verif.Lemmas.FockS Verif.Lemmas.GInt Matrix MeasureTheory
open scoped ComplexOrder

variable {N : ℕ} {hbar : ℝ}

/-- a covariance matrix above the vacuum is physical -/
theorem physical_of_classical (hh : 0 ≤ hbar) (V : Matrix (Fin N ⊕ Fin N) (Fin N ⊕ Fin N) ℝ) (h : (V - (hbar / 2) • 1).PosSemidef) : Spec.Classical V hbar := by
  have hv := (physical_vacuum N hbar hh).1
  rw [phase_vacuum] at hv
  refine ⟨⟨?_, ?_⟩, h⟩
  · have := h.1
    rw [IsHermitian, conjTranspose_eq_transpose_of_trivial, transpose_sub, transpose_smul, transpose_one] at this
    exact sub_left_injective this
  · have h2 := (real_posSemidef_map _).mpr h
    have := h2.add hv.2
    convert this using 1
    rw [← add_assoc]
    congr 1
    ext i j
    simp

theorem poisson_bound (lam : ℝ) (h : 0 ≤ lam) (g : ℕ → ℝ) (C : ℝ) (hg : ∀ k, |g k| ≤ C) : |Law.poisson lam g| ≤ C := by
  have := tsum_of_norm_bounded ((poissonW_hasSum lam).mul_right C) (f := fun k => poissonW lam k * g k) fun k => by
    rw [norm_mul, Real.norm_eq_abs, Real.norm_eq_abs, abs_of_nonneg (poissonW_nonneg h k)]
    exact mul_le_mul_of_nonneg_left (hg k) (poissonW_nonneg h k)
  rw [one_mul] at this
  exact this

theorem poissons_bound (l : List ℝ) : (∀ x ∈ l, 0 ≤ x) → ∀ (f : List ℕ → ℝ) (C : ℝ), (∀ r, |f r| ≤ C) → |Law.mapE Law.poisson l f| ≤ C := by
  induction l with
  | nil => intro _ f C hf; exact hf []
  | cons a l ih =>
    intro h f C hf
    exact poisson_bound a (h a (by simp)) _ C fun k => ih (fun x hx => h x (by simp [hx])) (fun r => f (k :: r)) C fun r => hf _

/-- the expected value is a measurable function of the rates -/
theorem poissons_measurable {X : Type} [MeasurableSpace X] (lam : X → Fin N → ℝ) (hl : ∀ k, Measurable fun x => lam x k) (h0 : ∀ x k, 0 ≤ lam x k) (f : List ℕ → ℝ) (C : ℝ) (hf : ∀ r, |f r| ≤ C) :
    Measurable fun x => Law.mapE Law.poisson (List.ofFn (lam x)) f := by
  refine measurable_of_tendsto_metrizable' (Filter.atTop) (f := fun (s : Finset (Fin N → ℕ)) x => ∑ n ∈ s, (∏ k, poissonW (lam x k) (n k)) * f (List.ofFn n)) (fun s => ?_) ?_
  · refine Finset.measurable_fun_sum _ fun n _ => Measurable.mul_const (Finset.measurable_fun_prod _ fun k _ => ?_) _
    unfold poissonW
    exact (((Real.measurable_exp.comp (hl k).neg)).mul ((hl k).pow_const _)).div_const _
  · exact tendsto_pi_nhds.mpr fun x => poissons_law N (lam x) (h0 x) f C hf

/-- independent blocks of normal variables -/
theorem normals_pair (n : ℕ) (g : (Fin n → ℝ) → (Fin n → ℝ) → ℝ) (hg : Measurable fun p : (Fin n → ℝ) × (Fin n → ℝ) => g p.1 p.2) (C : ℝ) (hb : ∀ x y, |g x y| ≤ C) :
    ∫ x, ∫ y, g x y ∂stdNormal (Fin n) ∂stdNormal (Fin n) = ∫ z, g (fun k => z (Sum.inl k)) (fun k => z (Sum.inr k)) ∂stdNormal (Fin n ⊕ Fin n) := by
  have hi : Integrable (fun p : (Fin n → ℝ) × (Fin n → ℝ) => g p.1 p.2) ((stdNormal (Fin n)).prod (stdNormal (Fin n))) :=
    Integrable.of_bound hg.aestronglyMeasurable C (Filter.Eventually.of_forall fun p => hb _ _)
  have := integral_prod _ hi
  rw [← this]
  have hp := measurePreserving_sumPiEquivProdPi (ι := Fin n) (ι' := Fin n) (X := fun _ => ℝ) (fun _ => ProbabilityTheory.gaussianReal 0 1)
  have h2 := hp.integral_comp' (g := fun p : (Fin n → ℝ) × (Fin n → ℝ) => g p.1 p.2)
  exact h2.symm

/-- the covariance matrix of the state: thermal states with the mean photon numbers `ls/(1-ls)`, behind the interferometer `O` -/
noncomputable def thermalK (N : ℕ) (ls : ℕ → ℝ) (O : ℕ → ℕ → ℝ) : Matrix (Fin N) (Fin N) ℝ := toMatrix N N O * diagonal (fun k : Fin N => ls k / (1 - ls k)) * (toMatrix N N O)ᵀ

theorem thermal_amp (hh : 0 < hbar) (ls : ℕ → ℝ) (O : ℕ → ℕ → ℝ) (x y : Fin N → ℝ) (j : Fin N) (mean : ℕ → ℝ)
    (h1 : mean j = ∑ k : Fin N, Real.sqrt (2 * hbar) * O j k * Real.sqrt (1 / 2 * ls k / (1 - ls k)) * x k) (h2 : mean (N + j) = ∑ k : Fin N, Real.sqrt (2 * hbar) * O j k * Real.sqrt (1 / 2 * ls k / (1 - ls k)) * y k) :
    cohAlpha N mean hbar j = ∑ k : Fin N, (O j k : ℂ) * (((Real.sqrt (1 / 2 * ls k / (1 - ls k)) * x k : ℝ) : ℂ) + Complex.I * ((Real.sqrt (1 / 2 * ls k / (1 - ls k)) * y k : ℝ) : ℂ)) := by
  have hs : (Real.sqrt (2 * hbar) : ℂ) ≠ 0 := by
    rw [Complex.ofReal_ne_zero]
    exact (Real.sqrt_pos.mpr (by positivity)).ne'
  unfold cohAlpha
  rw [h1, h2, div_eq_iff hs, Finset.sum_mul]
  rw [Complex.ofReal_sum, Complex.ofReal_sum, Finset.mul_sum, ← Finset.sum_add_distrib]
  refine Finset.sum_congr rfl fun k _ => ?_
  push_cast
  ring

theorem thermal_W (hh : 0 < hbar) (ls : ℕ → ℝ) (hls : ∀ k < N, 0 ≤ ls k ∧ ls k < 1) (O : ℕ → ℕ → ℝ) (M : Matrix (Fin N) (Fin N) ℝ) (hM : M = Matrix.of fun j k : Fin N => Real.sqrt (2 * hbar) * O j k * Real.sqrt (1 / 2 * ls k / (1 - ls k))) :
    fromBlocks M 0 0 M * (fromBlocks M 0 0 M)ᵀ = hbar • fromBlocks (thermalK N ls O) 0 0 (thermalK N ls O) := by
  have hMM : M * Mᵀ = hbar • thermalK N ls O := by
    ext i j
    rw [Matrix.mul_apply, Matrix.smul_apply, thermalK, Matrix.mul_apply, smul_eq_mul, Finset.mul_sum]
    refine Finset.sum_congr rfl fun k _ => ?_
    have hk := hls k k.2
    have h1 : Real.sqrt (2 * hbar) * Real.sqrt (2 * hbar) = 2 * hbar := Real.mul_self_sqrt (by positivity)
    have h2 : Real.sqrt (1 / 2 * ls k / (1 - ls k)) * Real.sqrt (1 / 2 * ls k / (1 - ls k)) = 1 / 2 * ls k / (1 - ls k) := Real.mul_self_sqrt (div_nonneg (by linarith) (by linarith))
    rw [mul_diagonal, transpose_apply, transpose_apply, hM]
    simp only [Matrix.of_apply, toMatrix]
    linear_combination (O i k * O j k * (Real.sqrt (1 / 2 * ls k / (1 - ls k)) * Real.sqrt (1 / 2 * ls k / (1 - ls k)))) * h1 + (O i k * O j k * (2 * hbar)) * h2
  rw [fromBlocks_transpose, fromBlocks_multiply, transpose_zero, Matrix.mul_zero, Matrix.zero_mul, Matrix.mul_zero, add_zero, add_zero, zero_add, hMM, fromBlocks_smul]
  simp

theorem thermal_classical (hh : 0 < hbar) (ls : ℕ → ℝ) (hls : ∀ k < N, 0 ≤ ls k ∧ ls k < 1) (O : ℕ → ℕ → ℝ) (cov : ℕ → ℕ → ℝ)
    (hcov : phase N N cov = (hbar / 2) • 1 + hbar • fromBlocks (thermalK N ls O) 0 0 (thermalK N ls O)) : Spec.Classical (phase N N cov) hbar := by
  refine physical_of_classical hh.le _ ?_
  rw [hcov, add_sub_cancel_left, ← thermal_W hh ls hls O (Matrix.of fun j k : Fin N => Real.sqrt (2 * hbar) * O j k * Real.sqrt (1 / 2 * ls k / (1 - ls k))) rfl, ← conjTranspose_eq_transpose_of_trivial]
  exact posSemidef_self_mul_conjTranspose _

/-- **C88** `generate_thermal_samples` samples the photon numbers of the product of thermal states with the mean photon numbers `ls/(1-ls)` behind the interferometer `O` -/
theorem thermal_law (hh : 0 < hbar) (ls : ℕ → ℝ) (hls : ∀ k < N, 0 ≤ ls k ∧ ls k < 1) (O : ℕ → ℕ → ℝ) (cov : ℕ → ℕ → ℝ)
    (hcov : phase N N cov = (hbar / 2) • 1 + hbar • fromBlocks (thermalK N ls O) 0 0 (thermalK N ls O)) (ρ : (Fin N → ℕ) → (Fin N → ℕ) → ℂ) (hρ : IsFockMatrix N (fun _ => 0) cov hbar ρ)
    (f : List ℕ → ℝ) (C : ℝ) (hf : ∀ l, |f l| ≤ C) : HasSum (fun n : Fin N → ℕ => (ρ n n).re * f (List.ofFn n)) (Law.thermalSample N ls O f) := by
  set M : Matrix (Fin N) (Fin N) ℝ := Matrix.of fun j k : Fin N => Real.sqrt (2 * hbar) * O j k * Real.sqrt (1 / 2 * ls k / (1 - ls k)) with hM
  have hW := thermal_W hh ls hls O M hM
  have h := mixture_law hh (fun _ => 0) cov (thermal_classical hh ls hls O cov hcov).1 (fromBlocks M 0 0 M) (by rw [hcov, hW])
    (fun z i => if i < N then ∑ k : Fin N, Real.sqrt (2 * hbar) * O i k * Real.sqrt (1 / 2 * ls k / (1 - ls k)) * z (Sum.inl k) else ∑ k : Fin N, Real.sqrt (2 * hbar) * O (i - N) k * Real.sqrt (1 / 2 * ls k / (1 - ls k)) * z (Sum.inr k))
    (fun z => by
      funext p
      rcases p with p | p
      · simp [phaseVec, quad, mulVec, dotProduct, hM]
      · simp [phaseVec, quad, mulVec, dotProduct, hM]) ρ hρ f C hf
  refine hs_eq h (fun _ => rfl) ?_
  have hrow : ∀ x y : Fin N → ℝ, (List.range N).map (fun j => ‖∑ k ∈ Finset.range N, (O j k : ℂ) * (((Real.sqrt (1 / 2 * ls k / (1 - ls k)) * (if h : k < N then x ⟨k, h⟩ else 0) : ℝ) : ℂ) +
      Complex.I * ((Real.sqrt (1 / 2 * ls k / (1 - ls k)) * (if h : k < N then y ⟨k, h⟩ else 0) : ℝ) : ℂ))‖ ^ 2) =
      List.ofFn fun j : Fin N => ‖∑ k : Fin N, (O j k : ℂ) * (((Real.sqrt (1 / 2 * ls k / (1 - ls k)) * x k : ℝ) : ℂ) + Complex.I * ((Real.sqrt (1 / 2 * ls k / (1 - ls k)) * y k : ℝ) : ℂ))‖ ^ 2 := by
    intro x y
    refine List.ext_getElem (by simp) fun i h1 h2 => ?_
    rw [List.getElem_map, List.getElem_range, List.getElem_ofFn, Finset.sum_range]
    congr 2
    refine Finset.sum_congr rfl fun k _ => ?_
    rw [dif_pos k.2, dif_pos k.2]
  have hE : Law.thermalSample N ls O f = ∫ x, ∫ y, Law.mapE Law.poisson (List.ofFn fun j : Fin N => ‖∑ k : Fin N, (O j k : ℂ) * (((Real.sqrt (1 / 2 * ls k / (1 - ls k)) * x k : ℝ) : ℂ) +
      Complex.I * ((Real.sqrt (1 / 2 * ls k / (1 - ls k)) * y k : ℝ) : ℂ))‖ ^ 2) f ∂stdNormal (Fin N) ∂stdNormal (Fin N) := by
    simp only [← hrow]
    rfl
  rw [hE, normals_pair N _ (poissons_measurable (X := (Fin N → ℝ) × (Fin N → ℝ)) (fun p j => ‖∑ k : Fin N, (O j k : ℂ) * (((Real.sqrt (1 / 2 * ls k / (1 - ls k)) * p.1 k : ℝ) : ℂ) +
      Complex.I * ((Real.sqrt (1 / 2 * ls k / (1 - ls k)) * p.2 k : ℝ) : ℂ))‖ ^ 2) (fun j => (Continuous.measurable (by fun_prop))) (fun p j => sq_nonneg _) f C hf) C fun x y => poissons_bound _ (by
        intro z hz
        obtain ⟨j, rfl⟩ := List.mem_ofFn.mp hz
        exact sq_nonneg _) f C hf]
  refine integral_congr_ae (Filter.Eventually.of_forall fun z => ?_)
  dsimp only
  congr 2
  funext j
  rw [thermal_amp hh ls O (fun k => z (Sum.inl k)) (fun k => z (Sum.inr k)) j]
  · simp
  · simp

/-- the matrix of the state, in terms of the adjacency matrix `O diag(ls) Oᵀ` -/
theorem thermal_Q (hh : 0 < hbar) (ls : ℕ → ℝ) (O : ℕ → ℕ → ℝ) (cov : ℕ → ℕ → ℝ)
    (hcov : phase N N cov = (hbar / 2) • 1 + hbar • fromBlocks (thermalK N ls O) 0 0 (thermalK N ls O)) :
    phase N N (Qmat N cov hbar) = fromBlocks ((1 + thermalK N ls O).map Complex.ofReal) 0 0 ((1 + thermalK N ls O).map Complex.ofReal) := by
  have hne := hh.ne'
  have hxx : ∀ i j : Fin N, cov i j = (hbar / 2) * (if i = j then 1 else 0) + hbar * thermalK N ls O i j := fun i j => by
    have := congrFun (congrFun hcov (Sum.inl i)) (Sum.inl j)
    simpa [phase, quad, Matrix.one_apply] using this
  have hpp : ∀ i j : Fin N, cov (N + i) (N + j) = (hbar / 2) * (if i = j then 1 else 0) + hbar * thermalK N ls O i j := fun i j => by
    have := congrFun (congrFun hcov (Sum.inr i)) (Sum.inr j)
    simpa [phase, quad, Matrix.one_apply] using this
  have hxp : ∀ i j : Fin N, cov i (N + j) = 0 := fun i j => by
    have := congrFun (congrFun hcov (Sum.inl i)) (Sum.inr j)
    simpa [phase, quad, Matrix.one_apply] using this
  have h1 : ∀ i j : Fin N, Qmat N cov hbar i j = (((1 + thermalK N ls O) i j : ℝ) : ℂ) := fun i j => by
    rw [Qmat_xx_mk N cov hbar i j i.2 j.2, hxx, hpp, hxp, hxp]
    have hij : (i : ℕ) = j ↔ i = j := Fin.ext_iff.symm
    refine Complex.ext ?_ ?_
    · simp only [hij, Matrix.add_apply, Matrix.one_apply, Complex.ofReal_re]
      split_ifs <;> field_simp <;> ring
    · simp
  have h2 : ∀ i j : Fin N, Qmat N cov hbar (N + i) j = 0 := fun i j => by
    rw [Qmat_px_mk N cov hbar i j i.2 j.2, hxx, hpp, hxp, hxp]
    refine Complex.ext ?_ ?_ <;> simp
  ext p q
  rcases p with p | p <;> rcases q with q | q
  · exact h1 p q
  · change Qmat N cov hbar p (N + q) = 0
    rw [Qmat_xp N cov hbar p q p.2 q.2, h2, map_zero]
  · exact h2 p q
  · change Qmat N cov hbar (N + p) (N + q) = _
    rw [Qmat_pp N cov hbar p q p.2 q.2, h1, Complex.conj_ofReal]
    rfl

/-- for an orthogonal `O`, `(1 + K)⁻¹ = 1 - O diag(ls) Oᵀ` and `det (1 + K) = Π 1/(1 - ls)` -/
theorem thermal_inv (ls : ℕ → ℝ) (hls : ∀ k < N, 0 ≤ ls k ∧ ls k < 1) (O : ℕ → ℕ → ℝ) (hO : toMatrix N N O ∈ orthogonalGroup (Fin N) ℝ) :
    (1 - toMatrix N N O * diagonal (fun k : Fin N => ls k) * (toMatrix N N O)ᵀ) * (1 + thermalK N ls O) = 1 ∧ (1 + thermalK N ls O).det = (∏ k : Fin N, (1 - ls k))⁻¹ := by
  have h1 : toMatrix N N O * (toMatrix N N O)ᵀ = 1 := (mem_orthogonalGroup_iff _ _).mp hO
  have h2 : (toMatrix N N O)ᵀ * toMatrix N N O = 1 := (mem_orthogonalGroup_iff' _ _).mp hO
  have hk : ∀ k : Fin N, 1 - ls k ≠ 0 := fun k => by have := hls k k.2; intro h; linarith
  have e1 : 1 - toMatrix N N O * diagonal (fun k : Fin N => ls k) * (toMatrix N N O)ᵀ = toMatrix N N O * diagonal (fun k : Fin N => 1 - ls k) * (toMatrix N N O)ᵀ := by
    have : diagonal (fun k : Fin N => 1 - ls k) = 1 - diagonal (fun k : Fin N => ls k) := by rw [← diagonal_one, diagonal_sub]
    rw [this, Matrix.mul_sub, Matrix.sub_mul, Matrix.mul_one, h1]
  have e2 : 1 + thermalK N ls O = toMatrix N N O * diagonal (fun k : Fin N => (1 - ls k)⁻¹) * (toMatrix N N O)ᵀ := by
    have : diagonal (fun k : Fin N => (1 - ls k)⁻¹) = 1 + diagonal (fun k : Fin N => ls k / (1 - ls k)) := by
      rw [← diagonal_one, diagonal_add]
      congr 1
      funext k
      have := hk k
      field_simp
      ring
    rw [this, Matrix.mul_add, Matrix.add_mul, Matrix.mul_one, h1, thermalK]
  constructor
  · rw [e1, e2]
    calc _ = toMatrix N N O * diagonal (fun k : Fin N => 1 - ls k) * ((toMatrix N N O)ᵀ * toMatrix N N O) * diagonal (fun k : Fin N => (1 - ls k)⁻¹) * (toMatrix N N O)ᵀ := by simp only [Matrix.mul_assoc]
      _ = 1 := by
        rw [h2, Matrix.mul_one, Matrix.mul_assoc (toMatrix N N O), diagonal_mul_diagonal]
        simp only [mul_inv_cancel₀ (hk _)]
        rw [diagonal_one, Matrix.mul_one, h1]
  · rw [e2, det_mul, det_mul, mul_right_comm, ← det_mul, h1, det_one, one_mul, det_diagonal, Finset.prod_inv_distrib]

/-- **C88** the photon-number distribution of thermal states behind an orthogonal interferometer: `⟨n|ρ|n⟩ = Π_k (1 - ls_k) per(A_n) / Π_k n_k!`, where `A = O diag(ls) Oᵀ` -/
theorem thermal_perm (hh : 0 < hbar) (ls : ℕ → ℝ) (hls : ∀ k < N, 0 ≤ ls k ∧ ls k < 1) (O : ℕ → ℕ → ℝ) (hO : toMatrix N N O ∈ orthogonalGroup (Fin N) ℝ) (cov : ℕ → ℕ → ℝ)
    (hcov : phase N N cov = (hbar / 2) • 1 + hbar • fromBlocks (thermalK N ls O) 0 0 (thermalK N ls O)) (ρ : (Fin N → ℕ) → (Fin N → ℕ) → ℂ) (hρ : IsFockMatrix N (fun _ => 0) cov hbar ρ)
    (a : ℕ → ℕ → ℝ) (ha : toMatrix N N a = toMatrix N N O * diagonal (fun k : Fin N => ls k) * (toMatrix N N O)ᵀ) (n : Fin N → ℕ) :
    ρ n n = (((∏ k : Fin N, (1 - ls k)) * (repeatedMatrix a (List.ofFn n)).permanent / ∏ k, ((n k).factorial : ℝ) : ℝ) : ℂ) := by
  have hph := (thermal_classical hh ls hls O cov hcov).1
  obtain ⟨hinv, hdet⟩ := thermal_inv ls hls O hO
  rw [← ha] at hinv
  have hQ := thermal_Q hh ls O cov hcov
  obtain ⟨A, γ, pref, hA, hAt, hAX, -, hγ0, hpos, hp, hF, hv⟩ := fock_setup (fun _ => 0) hh hph
  have hγ : ∀ k < 2 * N, γ k = 0 := fun k hk => hγ0 k hk fun _ _ => rfl
  -- the matrix A
  have hinvC : (1 - (toMatrix N N a).map Complex.ofReal) * (1 + thermalK N ls O).map Complex.ofReal = 1 := by
    have := congrArg (fun M : Matrix (Fin N) (Fin N) ℝ => M.map Complex.ofReal) hinv
    have h1 : ((1 : Matrix (Fin N) (Fin N) ℝ).map Complex.ofReal) = 1 := by ext i j; simp [Matrix.one_apply]; split_ifs <;> simp
    rw [h1] at this
    have hmm : ((1 - toMatrix N N a) * (1 + thermalK N ls O)).map Complex.ofReal = (1 - toMatrix N N a).map Complex.ofReal * (1 + thermalK N ls O).map Complex.ofReal := Matrix.map_mul (f := Complex.ofRealHom)
    rw [hmm] at this
    have hs : (1 - toMatrix N N a).map Complex.ofReal = 1 - (toMatrix N N a).map Complex.ofReal := by
      rw [← h1]
      ext i j
      exact Complex.ofReal_sub _ _
    rwa [hs] at this
  have hAb : phase N N A = fromBlocks 0 ((toMatrix N N a).map Complex.ofReal) ((toMatrix N N a).map Complex.ofReal) 0 := by
    have hX : phase N N (Xmat N) * phase N N (Xmat N) = (1 : Matrix (Fin N ⊕ Fin N) (Fin N ⊕ Fin N) ℂ) := by
      rw [phase_Xmat, fromBlocks_multiply]
      simp
    have hQi : (phase N N (Qmat N cov hbar))⁻¹ = fromBlocks (1 - (toMatrix N N a).map Complex.ofReal) 0 0 (1 - (toMatrix N N a).map Complex.ofReal) := by
      refine inv_eq_left_inv ?_
      rw [hQ, fromBlocks_multiply, hinvC]
      simp
    have : phase N N A = (1 - (phase N N (Qmat N cov hbar))⁻¹) * phase N N (Xmat N) := by rw [← hAX, Matrix.mul_assoc, hX, Matrix.mul_one]
    have hsub : (1 : Matrix (Fin N ⊕ Fin N) (Fin N ⊕ Fin N) ℂ) - fromBlocks (1 - (toMatrix N N a).map Complex.ofReal) 0 0 (1 - (toMatrix N N a).map Complex.ofReal) = fromBlocks ((toMatrix N N a).map Complex.ofReal) 0 0 ((toMatrix N N a).map Complex.ofReal) := by
      rw [sub_eq_iff_eq_add, fromBlocks_add]
      simp
    rw [this, hQi, hsub, phase_Xmat, fromBlocks_multiply]
    simp
  have hent : ∀ i < N, ∀ j < N, A i j = 0 ∧ A (N + i) (N + j) = 0 ∧ A i (N + j) = (a i j : ℂ) := fun i hi j hj =>
    ⟨congrFun (congrFun hAb (Sum.inl ⟨i, hi⟩)) (Sum.inl ⟨j, hj⟩), congrFun (congrFun hAb (Sum.inr ⟨i, hi⟩)) (Sum.inr ⟨j, hj⟩), congrFun (congrFun hAb (Sum.inl ⟨i, hi⟩)) (Sum.inr ⟨j, hj⟩)⟩
  -- the prefactor
  have hlen : ∀ m : Fin N → ℕ, (List.ofFn m).length = N := fun m => List.length_ofFn
  have hpre : (pref : ℂ) = ((∏ k : Fin N, (1 - ls k) : ℝ) : ℂ) := by
    have h0 := (fockMatrix_vacuum hh hph hF).1
    rw [hv] at h0
    have hr : repeatedIndices (List.ofFn (0 : Fin N → ℕ) ++ List.ofFn (0 : Fin N → ℕ)) = [] := by
      have : List.ofFn (0 : Fin N → ℕ) ++ List.ofFn (0 : Fin N → ℕ) = List.replicate (N + N) 0 := by
        rw [← List.replicate_append_replicate]
        congr 1 <;> exact List.ofFn_const N 0
      rw [this]
      exact rep_replicate_zero _
    rw [hr, lh_nil] at h0
    have h2 : (pref : ℂ) = ((husimiFn N (fun _ => 0) cov hbar 0 : ℝ) : ℂ) := by
      rw [← h0]; simp
    rw [h2]
    congr 1
    unfold husimiFn
    dsimp only
    have hd : cohQuad hbar (0 : Fin N → ℂ) - phaseVec N (fun _ => 0) = 0 := by
      funext p
      rcases p with p | p <;> simp [cohQuad, phaseVec]
    have hW : (1 / hbar) • (phase N N cov + (hbar / 2) • 1) = fromBlocks (1 + thermalK N ls O) 0 0 (1 + thermalK N ls O) := by
      have hne := hh.ne'
      have e : fromBlocks (1 + thermalK N ls O) 0 0 (1 + thermalK N ls O) = 1 + fromBlocks (thermalK N ls O) 0 0 (thermalK N ls O) := by
        rw [← fromBlocks_one, fromBlocks_add]
        simp
      rw [e, hcov, smul_add, smul_add, smul_smul, smul_smul]
      have h1 : 1 / hbar * hbar = 1 := by field_simp
      have h2 : 1 / hbar * (hbar / 2) = 1 / 2 := by field_simp
      rw [h1, h2, one_smul]
      have h3 : ((1 / 2 : ℝ) • (1 : Matrix (Fin N ⊕ Fin N) (Fin N ⊕ Fin N) ℝ)) + (1 / 2 : ℝ) • 1 = 1 := by rw [← add_smul]; norm_num
      rw [add_right_comm, h3]
    have hp0 : 0 < ∏ k : Fin N, (1 - ls k) := Finset.prod_pos fun k _ => by have := hls k k.2; linarith
    rw [hd, zero_dotProduct, neg_zero, zero_div, Real.exp_zero, hW, det_fromBlocks_zero₂₁, hdet, Real.sqrt_mul_self (inv_pos.mpr hp0).le, one_div, inv_inv]
  rw [fockMatrix_unique hρ hF, hv, hpre]
  -- the hafnian
  have hlt : ∀ i ∈ repeatedIndices (List.ofFn n), i < N := fun i hi => hlen n ▸ repeatedIndices_lt hi
  have hl : lh γ A (repeatedIndices (List.ofFn n ++ List.ofFn n)) = (((repeatedMatrix a (List.ofFn n)).permanent : ℝ) : ℂ) := by
    have hl0 : ∀ i ∈ repeatedIndices (List.ofFn n ++ List.ofFn n), i < 2 * N := fun i hi => by
      have := repeatedIndices_lt hi
      rw [List.length_append, hlen] at this
      omega
    rw [lh_congr (D' := fun _ => 0) (A' := A) (fun i hi => hγ i (hl0 i hi)) (fun _ _ _ _ => rfl), repeatedIndices_append, hlen, lh_bipartite]
    · have hm := permL_map A id (N + ·) (repeatedIndices (List.ofFn n)) (repeatedIndices (List.ofFn n))
      rw [List.map_id] at hm
      rw [hm, permL_congr (b := fun i j => ((a i j : ℝ) : ℂ)), permL_list, ← permSpec_eq, permSpec, repeatedMatrix]
      · push_cast
        rfl
      · intro x hx y hy
        exact (hent x (hlt x hx) y (hlt y hy)).2.2
    · intro x hx y hy
      exact (hent x (hlt x hx) y (hlt y hy)).1
    · intro x hx y hy
      rw [List.mem_map] at hx hy
      obtain ⟨x, hx, rfl⟩ := hx
      obtain ⟨y, hy, rfl⟩ := hy
      exact (hent x (hlt x hx) y (hlt y hy)).2.1
  rw [hl, Real.sqrt_mul_self (Finset.prod_nonneg fun k _ => by positivity)]
  push_cast
  rfl

theorem homog_thermalSample (ls : ℕ → ℝ) (O : ℕ → ℕ → ℝ) : Homog (Law.thermalSample N ls O) :=
  homog_bind _ _ (homog_normals _) fun x => homog_bind _ _ (homog_normals _) fun y => homog_mapE _ homog_poisson _

/-- **C88** the probability that `generate_thermal_samples(ls, O, num_samples)` returns the photon-number patterns `ns` is the product of the probabilities `Π_k (1 - ls_k) per(A_n) / Π_k n_k!`, where `A = O diag(ls) Oᵀ` -/
theorem generateThermalSamples_prob (ls : ℕ → ℝ) (hls : ∀ k < N, 0 ≤ ls k ∧ ls k < 1) (O : ℕ → ℕ → ℝ) (hO : toMatrix N N O ∈ orthogonalGroup (Fin N) ℝ)
    (a : ℕ → ℕ → ℝ) (ha : toMatrix N N a = toMatrix N N O * diagonal (fun k : Fin N => ls k) * (toMatrix N N O)ᵀ) (ns : List (Fin N → ℕ)) :
    Law.generateThermalSamples N ls O ns.length (fun rows => if rows = ns.map List.ofFn then 1 else 0) =
      (ns.map fun n => (∏ k : Fin N, (1 - ls k)) * (repeatedMatrix a (List.ofFn n)).permanent / ∏ k, ((n k).factorial : ℝ)).prod := by
  have hh : (0 : ℝ) < 2 := by norm_num
  obtain ⟨cov, hcov⟩ := exists_cov (N := N) ((2 / 2 : ℝ) • 1 + (2 : ℝ) • fromBlocks (thermalK N ls O) 0 0 (thermalK N ls O))
  obtain ⟨ρ, _, _, -, hρ, -⟩ := fock_gram (N := N) (fun _ => 0) hh (thermal_classical hh ls hls O cov hcov).1
  have h := repeatE_independent _ (homog_thermalSample (N := N) ls O) ((ns.map List.ofFn).map fun c (l : List ℕ) => if l = c then (1 : ℝ) else 0)
  simp only [indicator_rows] at h
  rw [List.length_map, List.length_map] at h
  refine h.trans ?_
  rw [List.map_map, List.map_map]
  congr 1
  refine List.map_congr_left fun n _ => ?_
  rw [Function.comp_apply, Function.comp_apply]
  have hl := thermal_law hh ls hls O cov hcov ρ hρ (fun l => if l = List.ofFn n then (1 : ℝ) else 0) 1 fun l => by split_ifs <;> simp
  rw [← hl.tsum_eq, tsum_eq_single n]
  · rw [if_pos rfl, mul_one, thermal_perm hh ls hls O hO cov hcov ρ hρ a ha n, Complex.ofReal_re]
  · intro m hm
    rw [if_neg fun h => hm (List.ofFn_injective h), mul_zero]

/-- a non-trivial case of the hypotheses: a rotation of two modes -/
example : ∃ (ls : ℕ → ℝ) (O : ℕ → ℕ → ℝ), (∀ k < 2, 0 ≤ ls k ∧ ls k < 1) ∧ toMatrix 2 2 O ∈ orthogonalGroup (Fin 2) ℝ ∧ O 0 1 ≠ 0 ∧ ls 0 ≠ ls 1 := by
  refine ⟨fun k => if k = 0 then 1 / 2 else 1 / 4, fun i j => if i = 0 ∧ j = 0 ∨ i = 1 ∧ j = 1 then 3 / 5 else if i = 0 then 4 / 5 else -4 / 5, ?_, ?_, by norm_num, by norm_num⟩
  · intro k _; dsimp only; split_ifs <;> norm_num
  · rw [mem_orthogonalGroup_iff]
    ext i j
    fin_cases i <;> fin_cases j <;> simp [toMatrix, Matrix.mul_apply, Fin.sum_univ_two] <;> norm_num

end Verif.Props
