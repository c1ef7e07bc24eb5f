/-
C88: the laws of the samplers for classical states.
-/
import Verif.Props.Mixture
import Verif.Props.LinAlgExists
import Verif.Props.ThresholdFock
import Verif.Props.Distinguishable
import Verif.Model.SamplerLaws
import Verif.Spec.Sampling

set_option linter.style.longLine false
set_option linter.unusedVariables false

namespace Verif.Props
open Verif.Model Verif.Model.Symp Verif.Model.Conv Verif.Model.Disting Verif.Spec Verif.Lemmas Verif.Lemmas.Symp Verif.Lemmas.Heis Verif.Lemmas.FPar Verif.Lemmas.FockS Verif.Lemmas.GInt Matrix MeasureTheory

variable {N : ℕ} {hbar : ℝ}

/-- the weights of the Poisson distribution -/
noncomputable def poissonW (lam : ℝ) (k : ℕ) : ℝ := Real.exp (-lam) * lam ^ k / k.factorial

theorem poissonW_nonneg {lam : ℝ} (h : 0 ≤ lam) (k : ℕ) : 0 ≤ poissonW lam k := by unfold poissonW; positivity

theorem poissonW_hasSum (lam : ℝ) : HasSum (poissonW lam) 1 := by
  have h := (NormedSpace.expSeries_div_hasSum_exp (𝔸 := ℝ) lam).mul_left (Real.exp (-lam))
  rw [← Real.exp_eq_exp_ℝ, ← Real.exp_add, neg_add_cancel, Real.exp_zero] at h
  exact h.congr_fun fun k => by unfold poissonW; ring

theorem poissonW_prod_summable (lam : Fin N → ℝ) (h : ∀ k, 0 ≤ lam k) : Summable fun n : Fin N → ℕ => ∏ k, poissonW (lam k) (n k) :=
  summable_pi (fun k n => poissonW_nonneg (h k) n) fun k => (poissonW_hasSum _).summable

/-- independent Poisson variables -/
theorem poissons_law : ∀ (N : ℕ) (lam : Fin N → ℝ) (h : ∀ k, 0 ≤ lam k) (f : List ℕ → ℝ) (C : ℝ) (hf : ∀ l, |f l| ≤ C),
    HasSum (fun n : Fin N → ℕ => (∏ k, poissonW (lam k) (n k)) * f (List.ofFn n)) (Law.mapE Law.poisson (List.ofFn lam) f) := by
  intro N
  induction N with
  | zero =>
    intro lam h f C hf
    have := hasSum_unique fun n : Fin 0 → ℕ => (∏ k, poissonW (lam k) (n k)) * f (List.ofFn n)
    simpa [Law.mapE, expect_pure] using this
  | succ N ih =>
    intro lam h f C hf
    have hs : Summable fun n : Fin (N + 1) → ℕ => (∏ k, poissonW (lam k) (n k)) * f (List.ofFn n) := by
      refine Summable.of_norm_bounded ((poissonW_prod_summable lam h).mul_right C) fun n => ?_
      rw [norm_mul, Real.norm_eq_abs, Real.norm_eq_abs, abs_of_nonneg (Finset.prod_nonneg fun k _ => poissonW_nonneg (h k) _)]
      exact mul_le_mul_of_nonneg_left (hf _) (Finset.prod_nonneg fun k _ => poissonW_nonneg (h k) _)
    have e := (Fin.consEquiv fun _ : Fin (N + 1) => ℕ).hasSum_iff.mpr hs.hasSum
    have hfib : ∀ k, HasSum (fun n : Fin N → ℕ => (∏ i, poissonW (lam i) ((Fin.cons k n : Fin (N + 1) → ℕ) i)) * f (List.ofFn (Fin.cons k n : Fin (N + 1) → ℕ)))
        (poissonW (lam 0) k * Law.mapE Law.poisson (List.ofFn fun i : Fin N => lam i.succ) fun l => f (k :: l)) := by
      intro k
      refine ((ih (fun i => lam i.succ) (fun i => h _) (fun l => f (k :: l)) C fun l => hf _).mul_left (poissonW (lam 0) k)).congr_fun fun n => ?_
      rw [Fin.prod_univ_succ, List.ofFn_succ]
      simp only [Fin.cons_zero, Fin.cons_succ]
      ring
    have h2 := HasSum.prod_fiberwise e hfib
    have : Law.mapE Law.poisson (List.ofFn lam) f = ∑' n : Fin (N + 1) → ℕ, (∏ k, poissonW (lam k) (n k)) * f (List.ofFn n) := by
      rw [← h2.tsum_eq, List.ofFn_succ]
      rfl
    rw [this]
    exact hs.hasSum

/-- independent repetitions -/
theorem homog_repeatE {α : Type} (p : Expect α) (hp : Homog p) (m : ℕ) : Homog (Law.repeatE p m) := by
  induction m with
  | zero => exact homog_pure _
  | succ m ih => exact homog_bind _ _ hp fun x => homog_bind _ _ ih fun l => homog_pure _

theorem homog_mapE {α β : Type} (p : α → Expect β) (hp : ∀ a, Homog (p a)) (l : List α) : Homog (Law.mapE p l) := by
  induction l with
  | nil => exact homog_pure _
  | cons a l ih => exact homog_bind _ _ (hp a) fun x => homog_bind _ _ ih fun l => homog_pure _

/-- the expected value of a product of functions of the rows, for independent repetitions -/
theorem repeatE_independent {α : Type} (p : Expect α) (hp : Homog p) (fs : List (α → ℝ)) :
    Law.repeatE p fs.length (fun rows => if rows.length = fs.length then (List.zipWith (fun f row => f row) fs rows).prod else 0) = (fs.map fun f => p f).prod := by
  induction fs with
  | nil => simp [Law.repeatE, expect_pure]
  | cons f fs ih =>
    rw [List.length_cons, Law.repeatE, expect_bind]
    simp only [expect_bind, expect_pure, List.length_cons, Nat.succ_inj, List.zipWith_cons_cons, List.prod_cons, List.map_cons]
    have e : ∀ x, Law.repeatE p fs.length (fun l => if l.length = fs.length then f x * (List.zipWith (fun f row => f row) fs l).prod else 0) = (fs.map fun f => p f).prod * f x := by
      intro x
      rw [← ih, mul_comm, ← homog_repeatE p hp]
      congr 1
      funext l
      split_ifs <;> ring
    simp only [e]
    rw [hp, mul_comm]

theorem mapE_independent {α β : Type} (p : α → Expect β) (hp : ∀ a, Homog (p a)) (l : List α) : ∀ fs : List (β → ℝ),
    Law.mapE p l (fun rows => if rows.length = fs.length then (List.zipWith (fun f row => f row) fs rows).prod else 0) =
      if l.length = fs.length then (List.zipWith (fun f a => p a f) fs l).prod else 0 := by
  induction l with
  | nil => intro fs; simp [Law.mapE, expect_pure]
  | cons a l ih =>
    intro fs
    rw [Law.mapE, expect_bind]
    simp only [expect_bind, expect_pure]
    rcases fs with _ | ⟨f, fs⟩
    · have hz : ∀ {γ : Type} (q : Expect γ), Homog q → q (fun _ => 0) = 0 := fun q hq => by
        have := hq 0 fun _ => 0
        simpa using this
      simp only [List.length_cons, List.length_nil, Nat.add_eq_zero_iff, one_ne_zero, and_false, if_false]
      rw [show (fun x => (Law.mapE p l) fun _ => (0 : ℝ)) = fun _ => 0 from funext fun x => hz _ (homog_mapE p hp l), hz _ (hp a)]
    · simp only [List.length_cons, Nat.succ_inj, List.zipWith_cons_cons, List.prod_cons]
      have e : ∀ x, Law.mapE p l (fun r => if r.length = fs.length then f x * (List.zipWith (fun f row => f row) fs r).prod else 0) = (if l.length = fs.length then (List.zipWith (fun f a => p a f) fs l).prod else 0) * f x := by
        intro x
        rw [← ih fs, mul_comm, ← homog_mapE p hp l]
        congr 1
        funext r
        split_ifs <;> ring
      simp only [e]
      rw [hp a]
      split_ifs <;> ring

theorem homog_poisson (lam : ℝ) : Homog (Law.poisson lam) := fun c g => by
  unfold Law.poisson
  rw [← tsum_mul_left]
  exact tsum_congr fun k => by ring

theorem homog_normals (n : ℕ) : Homog (Law.normals n) := fun c g => by
  unfold Law.normals
  exact integral_const_mul _ _

/-- the diagonal elements of a coherent state are the weights of independent Poisson variables -/
theorem coherent_diag (α : Fin N → ℂ) (n : Fin N → ℕ) :
    (Real.exp (-∑ k, ‖α k‖ ^ 2) : ℝ) * (starRingEnd ℂ) (cohAmp α n) * cohAmp α n = ((∏ k, poissonW (‖α k‖ ^ 2) (n k) : ℝ) : ℂ) := by
  have h1 : (starRingEnd ℂ) (cohAmp α n) * cohAmp α n = ((‖cohAmp α n‖ ^ 2 : ℝ) : ℂ) := by
    rw [mul_comm, Complex.mul_conj, Complex.normSq_eq_norm_sq]
  rw [mul_assoc, h1, ← Complex.ofReal_mul]
  congr 1
  unfold cohAmp poissonW
  rw [norm_prod, ← Finset.prod_pow, ← Finset.sum_neg_distrib, Real.exp_sum, ← Finset.prod_mul_distrib]
  refine Finset.prod_congr rfl fun k _ => ?_
  rw [norm_div, norm_pow, Complex.norm_conj, Complex.norm_real, Real.norm_of_nonneg (Real.sqrt_nonneg _), div_pow, Real.sq_sqrt (by positivity)]
  ring

/-- **C88** Poisson variables with the intensities of a random coherent state, whose amplitudes are normally distributed, are distributed as the photon numbers of the Gaussian state with the covariance matrix `ħ/2 + W Wᵀ` -/
theorem mixture_law {R : Type} [Fintype R] [DecidableEq R] (hh : 0 < hbar) (mu : ℕ → ℝ) (cov : ℕ → ℕ → ℝ) (hph : Physical (phase N N cov) hbar) (W : Matrix (Fin N ⊕ Fin N) R ℝ)
    (hcov : phase N N cov = (hbar / 2) • 1 + W * Wᵀ) (mean : (R → ℝ) → ℕ → ℝ) (hm : ∀ z, phaseVec N (mean z) = phaseVec N mu + W *ᵥ z)
    (ρ : (Fin N → ℕ) → (Fin N → ℕ) → ℂ) (hρ : IsFockMatrix N mu cov hbar ρ) (f : List ℕ → ℝ) (C : ℝ) (hf : ∀ l, |f l| ≤ C) :
    HasSum (fun n : Fin N → ℕ => (ρ n n).re * f (List.ofFn n)) (∫ z, Law.mapE Law.poisson (List.ofFn fun k => ‖cohAlpha N (mean z) hbar k‖ ^ 2) f ∂stdNormal R) := by
  have hvac : phase N N (vacuumState N hbar).cov = (hbar / 2) • (1 : Matrix (Fin N ⊕ Fin N) (Fin N ⊕ Fin N) ℝ) := phase_vacuum N hbar
  have hmix := fun n => gaussian_mixture hh mu cov (vacuumState N hbar).cov (physical_vacuum N hbar hh.le).1 W (hvac ▸ hcov) mean hm _ (fun z => coherent_fock N (mean z) hbar hh) ρ hρ n n
  simp only [coherent_diag] at hmix
  have hmix2 : ∀ n : Fin N → ℕ, Integrable (fun z => ∏ k, poissonW (‖cohAlpha N (mean z) hbar k‖ ^ 2) (n k)) (stdNormal R) ∧ ∫ z, ∏ k, poissonW (‖cohAlpha N (mean z) hbar k‖ ^ 2) (n k) ∂stdNormal R = (ρ n n).re := by
    intro n
    obtain ⟨hi, he⟩ := hmix n
    refine ⟨hi.re.congr (Filter.Eventually.of_forall fun z => Complex.ofReal_re _), ?_⟩
    rw [integral_complex_ofReal] at he
    rw [← he, Complex.ofReal_re]
  have hpos : ∀ z (n : Fin N → ℕ), 0 ≤ ∏ k, poissonW (‖cohAlpha N (mean z) hbar k‖ ^ 2) (n k) := fun z n => Finset.prod_nonneg fun k _ => poissonW_nonneg (sq_nonneg _) _
  have htr := (Complex.hasSum_re (fockMatrix_trace hh hph hρ)).summable
  have h := hasSum_integral_of_summable_integral_norm (μ := stdNormal R) (F := fun (n : Fin N → ℕ) z => (∏ k, poissonW (‖cohAlpha N (mean z) hbar k‖ ^ 2) (n k)) * f (List.ofFn n))
    (fun n => (hmix2 n).1.mul_const _) (by
      refine Summable.of_nonneg_of_le (fun n => integral_nonneg fun z => norm_nonneg _) (fun n => ?_) (htr.mul_right C)
      rw [← (hmix2 n).2, ← integral_mul_const]
      refine integral_mono (((hmix2 n).1.mul_const _).norm) ((hmix2 n).1.mul_const _) fun z => ?_
      dsimp only
      rw [norm_mul, Real.norm_eq_abs, Real.norm_eq_abs, abs_of_nonneg (hpos z n)]
      exact mul_le_mul_of_nonneg_left (hf _) (hpos z n))
  refine hs_eq h (fun n => ?_) ?_
  · rw [integral_mul_const, (hmix2 n).2]
  · refine integral_congr_ae (Filter.Eventually.of_forall fun z => ?_)
    exact (poissons_law N _ (fun k => sq_nonneg _) f C hf).tsum_eq.symm

theorem rates_eq (R : ℕ → ℝ) : Law.rates N hbar R = List.ofFn fun k : Fin N => ‖cohAlpha N R hbar k‖ ^ 2 := by
  unfold Law.rates
  refine List.ext_getElem (by simp) fun i h1 h2 => ?_
  rw [List.getElem_map, List.getElem_range, List.getElem_ofFn, cohAlpha, one_div_mul_eq_div]

/-- the law of one row -/
theorem classicalRow_law (factor : ℕ → (ℕ → ℕ → ℝ) → ℕ → ℕ → ℝ) (hfac : FactorContract factor) (hh : 0 < hbar) (mu : ℕ → ℝ) (cov : ℕ → ℕ → ℝ) (hcl : Spec.Classical (phase N N cov) hbar)
    (ρ : (Fin N → ℕ) → (Fin N → ℕ) → ℂ) (hρ : IsFockMatrix N mu cov hbar ρ) (f : List ℕ → ℝ) (C : ℝ) (hf : ∀ l, |f l| ≤ C) :
    HasSum (fun n : Fin N → ℕ => (ρ n n).re * f (List.ofFn n))
      (Law.multivariateNormal factor (2 * N) mu (fun i j => cov i j - 1 / 2 * hbar * if i = j then 1 else 0) fun row => Law.mapE Law.poisson (Law.rates N hbar row) f) := by
  set D : ℕ → ℕ → ℝ := fun i j => cov i j - 1 / 2 * hbar * if i = j then 1 else 0 with hD
  have hDp : phase N N D = phase N N cov - (hbar / 2) • 1 := by
    ext p q
    have : phase N N D p q = cov (quad N p) (quad N q) - 1 / 2 * hbar * if quad N p = quad N q then 1 else 0 := rfl
    rw [this, Matrix.sub_apply, Matrix.smul_apply, Matrix.one_apply]
    have h2 : quad N p = quad N q ↔ p = q := ⟨fun h => quad_injective N h, fun h => by rw [h]⟩
    simp only [h2, smul_eq_mul]
    have : phase N N cov p q = cov (quad N p) (quad N q) := rfl
    rw [this]
    split_ifs <;> ring
  have hpsd : (toMatrix (2 * N) (2 * N) D).PosSemidef := by
    rw [← posSemidef_submatrix_equiv (quadEquiv N), ← phase_toMatrix, hDp]
    exact hcl.2
  have hF := hfac (2 * N) D hpsd
  set F := factor (2 * N) D with hFd
  have hW : phase N N cov = (hbar / 2) • 1 + ((toMatrix (2 * N) (2 * N) F).submatrix (quadEquiv N) id) * ((toMatrix (2 * N) (2 * N) F).submatrix (quadEquiv N) id)ᵀ := by
    rw [transpose_submatrix, ← submatrix_mul _ _ _ _ _ Function.bijective_id, hF, ← phase_toMatrix, hDp]
    abel
  have h := mixture_law hh mu cov hcl.1 _ hW (fun z i => mu i + ∑ k : Fin (2 * N), F i k * z k) (fun z => by
    funext p
    rfl) ρ hρ f C hf
  refine hs_eq h (fun _ => rfl) ?_
  unfold Law.multivariateNormal
  rw [expect_bind]
  unfold Law.normals stdNormal
  refine integral_congr_ae (Filter.Eventually.of_forall fun z => ?_)
  dsimp only
  rw [expect_pure, rates_eq]
  congr 3
  funext k
  congr 3
  funext i
  rw [Finset.sum_range]
  congr 1
  refine Finset.sum_congr rfl fun k _ => ?_
  rw [dif_pos k.2]

/-- a factorisation with the contract exists -/
theorem factor_exists : ∃ factor, FactorContract factor := by
  have : ∀ (n : ℕ) (C : RArr), ∃ F : RArr, (toMatrix n n C).PosSemidef → toMatrix n n F * (toMatrix n n F)ᵀ = toMatrix n n C := by
    intro n C
    by_cases h : (toMatrix n n C).PosSemidef
    · have hs := h.1.spectral_theorem
      set U := h.1.eigenvectorUnitary
      set d := h.1.eigenvalues
      have hd : ∀ i, 0 ≤ d i := h.eigenvalues_nonneg
      refine ⟨ofMatrix ((U : Matrix (Fin n) (Fin n) ℝ) * diagonal (fun i => Real.sqrt (d i))) fun _ _ => 0, fun _ => ?_⟩
      rw [toMatrix_ofMatrix']
      conv_rhs => rw [hs]
      rw [Unitary.conjStarAlgAut_apply, transpose_mul, diagonal_transpose, Matrix.mul_assoc, ← Matrix.mul_assoc (diagonal _) (diagonal _), diagonal_mul_diagonal, star_eq_conjTranspose,
        conjTranspose_eq_transpose_of_trivial, ← Matrix.mul_assoc]
      congr 3
      funext i
      simp [Real.mul_self_sqrt (hd i)]
    · exact ⟨C, fun h' => absurd h' h⟩
  choose F hF using this
  exact ⟨F, hF⟩

/-- **C88** `hafnian_sample_classical_state` returns independent samples with the photon-number distribution of the state: for a classical covariance matrix which passes the check and bounded functions `f` of the rows, the expected
value of the product of the functions of the rows is the product of the sums `Σ_n ⟨n|ρ|n⟩ f(n)`. -/
theorem hafnianSampleClassical_law (factor : ℕ → (ℕ → ℕ → ℝ) → ℕ → ℕ → ℝ) (hfac : FactorContract factor) (close : ℝ → ℝ → Bool) (hh : 0 < hbar) (cov : ℕ → ℕ → ℝ) (hcl : Spec.Classical (phase N N cov) hbar) (atol : ℝ)
    (hacc : Checks.isClassicalCov close (2 * N) (2 * N) cov hbar atol = true) (mean : Option (ℕ × (ℕ → ℝ))) (hmean : ∀ v ∈ mean, v.1 = 2 * N)
    (ρ : (Fin N → ℕ) → (Fin N → ℕ) → ℂ) (hρ : IsFockMatrix N (mean.elim (fun _ => 0) fun v => v.2) cov hbar ρ) (fs : List (List ℕ → ℝ)) (hfs : ∀ f ∈ fs, ∃ C, ∀ l, |f l| ≤ C) :
    ∃ E, Law.hafnianSampleClassical factor close (2 * N) (2 * N) cov fs.length mean hbar atol = .ok E ∧
      (∀ f ∈ fs, Summable fun n : Fin N → ℕ => (ρ n n).re * f (List.ofFn n)) ∧
      E (fun rows => if rows.length = fs.length then (List.zipWith (fun f row => f row) fs rows).prod else 0) = (fs.map fun f => ∑' n : Fin N → ℕ, (ρ n n).re * f (List.ofFn n)).prod := by
  have hE : Law.hafnianSampleClassical factor close (2 * N) (2 * N) cov fs.length mean hbar atol = .ok (do
      let R ← Law.repeatE (Law.multivariateNormal factor (2 * N) (mean.elim (fun _ => 0) fun v => v.2) fun i j => cov i j - 1 / 2 * hbar * if i = j then 1 else 0) fs.length
      Law.mapE (fun row => Law.mapE Law.poisson (Law.rates (2 * N / 2) hbar row)) R) := by
    unfold Law.hafnianSampleClassical
    rw [if_neg (by rw [hacc]; simp), if_neg]
    rcases mean with _ | v
    · simp
    · simpa using hmean v rfl
  refine ⟨_, hE, fun f hf => ?_, ?_⟩
  · obtain ⟨C, hC⟩ := hfs f hf
    exact (classicalRow_law factor hfac hh _ cov hcl ρ hρ f C hC).summable
  rw [expect_bind]
  have hmv : Homog (Law.multivariateNormal factor (2 * N) (mean.elim (fun _ => 0) fun v => v.2) fun i j => cov i j - 1 / 2 * hbar * if i = j then 1 else 0) :=
    homog_bind _ _ (homog_normals _) fun z => homog_pure _
  simp only [mapE_independent _ fun row => homog_mapE _ homog_poisson _]
  have := repeatE_independent _ hmv (fs.map fun f row => Law.mapE Law.poisson (Law.rates (2 * N / 2) hbar row) f)
  rw [List.length_map] at this
  simp only [List.zipWith_map_left] at this
  rw [this, List.map_map]
  congr 1
  refine List.map_congr_left fun f hf => ?_
  obtain ⟨C, hC⟩ := hfs f hf
  rw [Function.comp_apply, Nat.mul_div_cancel_left _ (by norm_num)]
  exact (classicalRow_law factor hfac hh _ cov hcl ρ hρ f C hC).tsum_eq.symm

/-- the indicator function of a list of rows -/
theorem indicator_rows {α : Type} [DecidableEq α] (cs rows : List α) :
    (if rows.length = (cs.map fun c (l : α) => if l = c then (1 : ℝ) else 0).length then (List.zipWith (fun f row => f row) (cs.map fun c (l : α) => if l = c then (1 : ℝ) else 0) rows).prod else 0) = if rows = cs then 1 else 0 := by
  induction cs generalizing rows with
  | nil => rcases rows with _ | ⟨r, rows⟩ <;> simp
  | cons c cs ih =>
    rcases rows with _ | ⟨r, rows⟩
    · simp
    · have := ih rows
      simp only [List.length_map, List.length_cons, Nat.succ_inj, List.map_cons, List.zipWith_cons_cons, List.prod_cons, List.cons.injEq] at this ⊢
      by_cases hr : r = c
      · simp only [hr, if_true, one_mul, true_and]
        exact this
      · simp [hr]

/-- **C88** the probability that `hafnian_sample_classical_state` returns the photon-number patterns `ns` is the product of their probabilities `⟨n|ρ|n⟩` -/
theorem hafnianSampleClassical_prob (factor : ℕ → (ℕ → ℕ → ℝ) → ℕ → ℕ → ℝ) (hfac : FactorContract factor) (close : ℝ → ℝ → Bool) (hh : 0 < hbar) (cov : ℕ → ℕ → ℝ) (hcl : Spec.Classical (phase N N cov) hbar) (atol : ℝ)
    (hacc : Checks.isClassicalCov close (2 * N) (2 * N) cov hbar atol = true) (mean : Option (ℕ × (ℕ → ℝ))) (hmean : ∀ v ∈ mean, v.1 = 2 * N)
    (ρ : (Fin N → ℕ) → (Fin N → ℕ) → ℂ) (hρ : IsFockMatrix N (mean.elim (fun _ => 0) fun v => v.2) cov hbar ρ) (ns : List (Fin N → ℕ)) :
    ∃ E, Law.hafnianSampleClassical factor close (2 * N) (2 * N) cov ns.length mean hbar atol = .ok E ∧
      E (fun rows => if rows = ns.map List.ofFn then 1 else 0) = (ns.map fun n => (ρ n n).re).prod := by
  obtain ⟨E, hE, -, hv⟩ := hafnianSampleClassical_law factor hfac close hh cov hcl atol hacc mean hmean ρ hρ ((ns.map List.ofFn).map fun c (l : List ℕ) => if l = c then (1 : ℝ) else 0) fun f hf => by
    obtain ⟨c, -, rfl⟩ := List.mem_map.mp hf
    exact ⟨1, fun l => by dsimp only; split_ifs <;> simp⟩
  refine ⟨E, by simpa using hE, ?_⟩
  simp only [indicator_rows] at hv
  rw [hv, List.map_map, List.map_map]
  congr 1
  refine List.map_congr_left fun n _ => ?_
  rw [Function.comp_apply, Function.comp_apply, tsum_eq_single n]
  · simp
  · intro m hm
    dsimp only
    rw [if_neg fun h => hm (List.ofFn_injective h), mul_zero]

theorem pattern_iff (n : Fin N → ℕ) (c : Finset ℕ) :
    ((List.ofFn n).map fun x => if x > 0 then 1 else 0) = ((List.range N).map fun k => if k ∈ c then 1 else 0) ↔ ∀ k : Fin N, 0 < n k ↔ (k : ℕ) ∈ c := by
  have key : ∀ (a b : Prop) [Decidable a] [Decidable b], (if a then 1 else 0) = (if b then 1 else (0 : ℕ)) ↔ (a ↔ b) := fun a b _ _ => by
    by_cases ha : a <;> by_cases hb : b <;> simp [ha, hb]
  constructor
  · intro hn k
    have := List.getElem_of_eq hn (i := k) (by simp)
    simp only [List.getElem_map, List.getElem_ofFn, List.getElem_range] at this
    exact (key _ _).mp this
  · intro hn
    refine List.ext_getElem (by simp) fun i h1 h2 => ?_
    have hi : i < N := by simpa using h1
    simp only [List.getElem_map, List.getElem_ofFn, List.getElem_range]
    exact (key _ _).mpr (hn ⟨i, hi⟩)

/-- **C88** the probability that `torontonian_sample_classical_state` returns the click patterns `cs` is the product of their probabilities -/
theorem torontonianSampleClassical_prob (factor : ℕ → (ℕ → ℕ → ℝ) → ℕ → ℕ → ℝ) (hfac : FactorContract factor) (close : ℝ → ℝ → Bool) (hh : 0 < hbar) (cov : ℕ → ℕ → ℝ) (hcl : Spec.Classical (phase N N cov) hbar) (atol : ℝ)
    (hacc : Checks.isClassicalCov close (2 * N) (2 * N) cov hbar atol = true) (mean : Option (ℕ × (ℕ → ℝ))) (hmean : ∀ v ∈ mean, v.1 = 2 * N) (cs : List (Finset ℕ)) (hcs : ∀ c ∈ cs, c ⊆ Finset.range N) :
    ∃ E, Law.torontonianSampleClassical factor close (2 * N) (2 * N) cov cs.length mean hbar atol = .ok E ∧
      E (fun rows => if rows = cs.map (fun c => (List.range N).map fun k => if k ∈ c then 1 else 0) then 1 else 0) =
        (cs.map fun c => clickProb N (mean.elim (fun _ => 0) fun v => v.2) cov hbar c).prod := by
  obtain ⟨ρ, _, _, -, hρ, -⟩ := fock_gram (N := N) (mean.elim (fun _ => 0) fun v => v.2) hh hcl.1
  set pat : Finset ℕ → List ℕ := fun c => (List.range N).map fun k => if k ∈ c then 1 else 0 with hpat
  obtain ⟨E, hE, -, hv⟩ := hafnianSampleClassical_law factor hfac close hh cov hcl atol hacc mean hmean ρ hρ (cs.map fun c (l : List ℕ) => if (l.map fun x => if x > 0 then 1 else 0) = pat c then (1 : ℝ) else 0) fun f hf => by
    obtain ⟨c, -, rfl⟩ := List.mem_map.mp hf
    exact ⟨1, fun l => by dsimp only; split_ifs <;> simp⟩
  rw [List.length_map] at hE
  refine ⟨_, by unfold Law.torontonianSampleClassical; rw [hE]; rfl, ?_⟩
  beta_reduce
  rw [expect_bind]
  simp only [expect_pure]
  have e : ∀ rows : List (List ℕ), (if rows.map (fun row => row.map fun x => if x > 0 then 1 else 0) = cs.map pat then (1 : ℝ) else 0) =
      if rows.length = (cs.map fun c (l : List ℕ) => if (l.map fun x => if x > 0 then 1 else 0) = pat c then (1 : ℝ) else 0).length then
        (List.zipWith (fun f row => f row) (cs.map fun c (l : List ℕ) => if (l.map fun x => if x > 0 then 1 else 0) = pat c then (1 : ℝ) else 0) rows).prod else 0 := by
    intro rows
    rw [← indicator_rows (cs.map pat)]
    simp only [List.length_map, List.zipWith_map_left, List.zipWith_map_right]
  simp only [e]
  rw [hv, List.map_map]
  congr 1
  refine List.map_congr_left fun c hc => ?_
  have h := clickProb_fock hh hcl.1 hρ c (hcs c hc)
  rw [← h.tsum_eq]
  refine (HasSum.tsum_eq ?_)
  have h2 := (hasSum_restrict (fun n : Fin N → ℕ => (ρ n n).re) _ _).mp h
  refine hs_eq h2 (fun n => ?_) h.tsum_eq
  congr 1
  exact if_congr (pattern_iff n c) rfl rfl

end Verif.Props
