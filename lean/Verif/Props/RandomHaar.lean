/-
C50: `random_interferometer` is Haar distributed: if the entries that the generator returns are independent standard normal numbers, the unitary
that is returned has no NaN almost surely, and its distribution is invariant under multiplication with a unitary.
-/
import Verif.Props.Random
import Mathlib.Probability.Distributions.Gaussian.Multivariate
import Mathlib.Algebra.MvPolynomial.Equiv
import Mathlib.Algebra.MvPolynomial.Funext
import Mathlib.Topology.Algebra.MvPolynomial

set_option linter.unusedSectionVars false
set_option linter.unusedSimpArgs false

namespace Verif.Props
open Matrix Verif.Model Verif.Model.Symp Verif.Model.Rnd Verif.Spec Verif.Lemmas.Symp
open MeasureTheory ProbabilityTheory

variable {N : ℕ}

/-- the zeros of a polynomial that is not zero have measure zero -/
theorem zeros_null (n : ℕ) (μ : Measure ℝ) [SigmaFinite μ] [NullSingletonClass μ] (p : MvPolynomial (Fin n) ℂ) (hp : p ≠ 0) :
    (Measure.pi fun _ : Fin n => μ) {x | MvPolynomial.eval (fun i => ((x i : ℝ) : ℂ)) p = 0} = 0 := by
  induction n with
  | zero =>
    have : {x : Fin 0 → ℝ | MvPolynomial.eval (fun i => ((x i : ℝ) : ℂ)) p = 0} = ∅ := by
      ext x
      simp only [Set.mem_ofPred_eq, Set.mem_empty_iff_false, iff_false]
      intro h
      refine hp (MvPolynomial.funext fun y => ?_)
      rw [map_zero, ← h]
      congr 1
      congr 1
      funext i; exact i.elim0
    rw [this]; simp
  | succ n ih =>
    set S : Set (Fin (n + 1) → ℝ) := {x | MvPolynomial.eval (fun i => ((x i : ℝ) : ℂ)) p = 0} with hS
    set q := MvPolynomial.finSuccEquiv ℂ n p with hq
    have hq0 : q ≠ 0 := by rw [hq]; simpa using hp
    set e := MeasurableEquiv.piFinSuccAbove (fun _ : Fin (n + 1) => ℝ) 0
    have hpres := measurePreserving_piFinSuccAbove (fun _ : Fin (n + 1) => μ) 0
    set T : Set (ℝ × (Fin n → ℝ)) := {z | Polynomial.eval (z.1 : ℂ) (Polynomial.map (MvPolynomial.eval fun i => ((z.2 i : ℝ) : ℂ)) q) = 0} with hT
    have hST : S = e ⁻¹' T := by
      ext x
      have hx : (fun i => ((x i : ℝ) : ℂ)) = Fin.cons ((x 0 : ℝ) : ℂ) fun i : Fin n => ((x i.succ : ℝ) : ℂ) := by
        funext i; refine Fin.cases ?_ (fun i => ?_) i <;> simp
      simp only [hS, hT, Set.mem_ofPred_eq, Set.mem_preimage]
      rw [hx, MvPolynomial.eval_eq_eval_mv_eval']
      rfl
    have hcont : Continuous fun x : Fin (n + 1) → ℝ => MvPolynomial.eval (fun i => ((x i : ℝ) : ℂ)) p :=
      (MvPolynomial.continuous_eval p).comp (by fun_prop)
    have hSm : MeasurableSet S := (isClosed_singleton.preimage hcont).measurableSet
    have hTm : MeasurableSet T := by
      have : T = e.symm ⁻¹' S := by rw [hST]; ext z; simp
      rw [this]; exact e.symm.measurable hSm
    rw [hST, hpres.measure_preimage_equiv, Measure.prod_apply_symm hTm, lintegral_eq_zero_iff (measurable_measure_prodMk_right hTm)]
    have hlead : q.leadingCoeff ≠ 0 := Polynomial.leadingCoeff_ne_zero.mpr hq0
    have hae := ih q.leadingCoeff hlead
    have hae' : ∀ᵐ y ∂(Measure.pi fun _ : Fin n => μ), MvPolynomial.eval (fun i => ((y i : ℝ) : ℂ)) q.leadingCoeff ≠ 0 := by
      rw [ae_iff]; simpa using hae
    filter_upwards [hae'] with y hy
    have hne : Polynomial.map (MvPolynomial.eval fun i => ((y i : ℝ) : ℂ)) q ≠ 0 := by
      intro h0
      have := congrArg (fun r => Polynomial.coeff r q.natDegree) h0
      rw [Polynomial.coeff_map] at this
      exact hy this
    have hfin : ((fun x : ℝ => (x, y)) ⁻¹' T).Finite := by
      have h1 : {z : ℂ | (Polynomial.map (MvPolynomial.eval fun i => ((y i : ℝ) : ℂ)) q).IsRoot z}.Finite := Polynomial.finite_setOfPred_isRoot hne
      have h2 := h1.preimage (f := Complex.ofReal) Complex.ofReal_injective.injOn
      exact h2
    exact hfin.measure_zero μ

/-- the zeros of a polynomial in any finite family of variables -/
theorem zeros_null' {ι : Type} [Fintype ι] (μ : Measure ℝ) [SigmaFinite μ] [NullSingletonClass μ] (p : MvPolynomial ι ℂ) (hp : p ≠ 0) :
    (Measure.pi fun _ : ι => μ) {x | MvPolynomial.eval (fun i => ((x i : ℝ) : ℂ)) p = 0} = 0 := by
  have e := Fintype.equivFin ι
  have hpres := measurePreserving_piCongrLeft (fun _ : Fin (Fintype.card ι) => μ) e
  have h := zeros_null (Fintype.card ι) μ (MvPolynomial.rename e p) (by
    intro h0
    exact hp (MvPolynomial.rename_injective e e.injective (by rw [h0, map_zero])))
  rw [← hpres.measure_preimage_equiv] at h
  convert h using 2
  ext x
  simp only [Set.mem_ofPred_eq, Set.mem_preimage, MvPolynomial.eval_rename]
  have : (fun i => ((x i : ℝ) : ℂ)) = (fun i => (((MeasurableEquiv.piCongrLeft (fun _ : Fin (Fintype.card ι) => ℝ) e) x i : ℝ) : ℂ)) ∘ e := by
    funext i
    simp only [Function.comp]
    congr 1
    exact (Equiv.piCongrLeft_apply_apply (fun _ : Fin (Fintype.card ι) => ℝ) e x i).symm
  rw [this]

/-- The numbers that the first two calls to the generator return for an `N × N` array. -/
abbrev Draws (N : ℕ) := Fin 2 × Fin N × Fin N → ℝ

/-- The generator that returns these numbers. -/
def rngOf (N : ℕ) (ω : Draws N) : ℕ → RArr := fun k i j => if h : k < 2 ∧ i < N ∧ j < N then ω (⟨k, h.1⟩, ⟨i, h.2.1⟩, ⟨j, h.2.2⟩) else 0

/-- The numbers are independent and have a standard normal distribution: what `np.random.randn` promises. -/
noncomputable def normalDraws (N : ℕ) : Measure (Draws N) := Measure.pi fun _ => gaussianReal 0 1

/-- the complex matrix made of the two draws -/
noncomputable def zOf {N : ℕ} (ω : Draws N) : Matrix (Fin N) (Fin N) ℂ := Matrix.of fun i j => ⟨ω (0, i, j), ω (1, i, j)⟩

theorem ginibre_rngOf_false {N : ℕ} (ω : Draws N) : ginibre (rngOf N ω) false N 0 = (1 / ((Real.sqrt 2 : ℝ) : ℂ)) • zOf ω := by
  ext i j
  simp only [ginibre, rngOf, zOf, Bool.false_eq_true, if_false, of_apply, Matrix.smul_apply, smul_eq_mul, Fin.is_lt, and_self, and_true, Nat.zero_lt_two, dite_true,
    Nat.zero_add, Nat.one_lt_two, Fin.eta]
  have : (⟨ω (0, i, j), ω (1, i, j)⟩ : ℂ) = ((ω (0, i, j) : ℝ) : ℂ) + Complex.I * ((ω (1, i, j) : ℝ) : ℂ) := by
    apply Complex.ext <;> simp
  rw [this]
  simp only [Fin.zero_eta, Fin.mk_one]
  ring

theorem ginibre_rngOf_true {N : ℕ} (ω : Draws N) : ginibre (rngOf N ω) true N 0 = Matrix.of fun i j => ((ω (0, i, j) : ℝ) : ℂ) := by
  ext i j
  simp [ginibre, rngOf]

/-- C50: almost surely no NaN is returned. -/
theorem randomInterferometer_ae (lib : Draws N → Lib) (hl : ∀ ω, LibOk (lib ω)) (hrng : ∀ ω, (lib ω).rng = rngOf N ω) (real : Bool) :
    normalDraws N {ω | randomInterferometer (lib ω) N real 0 = none} = 0 := by
  have hset : {ω | randomInterferometer (lib ω) N real 0 = none} = {ω | (ginibre (rngOf N ω) real N 0).det = 0} := by
    ext ω
    have := randomInterferometer_defined (lib ω) (hl ω) N real 0
    rw [hrng] at this
    simp only [Set.mem_ofPred_eq]
    rw [← not_iff_not, ← ne_eq, ← ne_eq, ← this, Option.ne_none_iff_exists']
  rw [hset]
  haveI : NullSingletonClass (gaussianReal 0 1) := nullSingletonClass_gaussianReal (by norm_num)
  let M : Matrix (Fin N) (Fin N) (MvPolynomial (Fin 2 × Fin N × Fin N) ℂ) :=
    if real then Matrix.of fun i j => MvPolynomial.X (0, i, j)
    else Matrix.of fun i j => MvPolynomial.C (1 / ((Real.sqrt 2 : ℝ) : ℂ)) * (MvPolynomial.X (0, i, j) + MvPolynomial.C Complex.I * MvPolynomial.X (1, i, j))
  have hM : ∀ ω : Draws N, MvPolynomial.eval (fun p => ((ω p : ℝ) : ℂ)) M.det = (ginibre (rngOf N ω) real N 0).det := by
    intro ω
    rw [RingHom.map_det]
    congr 1
    ext i j
    cases real with
    | true => rw [ginibre_rngOf_true]; simp [M]
    | false =>
      simp only [M, ginibre, rngOf, Bool.false_eq_true, if_false, RingHom.mapMatrix_apply, Matrix.map_apply, of_apply, map_mul, map_add, MvPolynomial.eval_C, MvPolynomial.eval_X,
        Fin.is_lt, and_self, and_true, Nat.zero_lt_two, dite_true, Nat.zero_add, Nat.one_lt_two, Fin.eta, Fin.zero_eta, Fin.mk_one]
      ring
  have hdet : M.det ≠ 0 := by
    intro h0
    let ω : Draws N := fun p => if p.1 = 0 ∧ p.2.1 = p.2.2 then 1 else 0
    have h1 := hM ω
    rw [h0, map_zero] at h1
    cases real with
    | true =>
      rw [ginibre_rngOf_true] at h1
      have : (Matrix.of fun i j : Fin N => ((ω (0, i, j) : ℝ) : ℂ)) = 1 := by
        ext i j; by_cases hij : i = j <;> simp [ω, hij, Matrix.one_apply]
      rw [this, det_one] at h1
      exact zero_ne_one h1
    | false =>
      rw [ginibre_rngOf_false] at h1
      have : zOf ω = 1 := by
        ext i j
        by_cases hij : i = j
        · subst hij; apply Complex.ext <;> simp [zOf, ω]
        · apply Complex.ext <;> simp [zOf, ω, hij, Matrix.one_apply]
      rw [this, det_smul, det_one, mul_one] at h1
      have hs : ((Real.sqrt 2 : ℝ) : ℂ) ≠ 0 := by
        have : Real.sqrt 2 ≠ 0 := by positivity
        exact_mod_cast this
      exact pow_ne_zero _ (one_div_ne_zero hs) h1.symm
  have := zeros_null' (gaussianReal 0 1) M.det hdet
  simp only [hM] at this
  exact this

/-- the action of a complex matrix on the draws -/
noncomputable def rotate {N : ℕ} (V : Matrix (Fin N) (Fin N) ℂ) : Draws N →ₗ[ℝ] Draws N where
  toFun ω p := if p.1 = 0 then (V * zOf ω) p.2.1 p.2.2 |>.re else (V * zOf ω) p.2.1 p.2.2 |>.im
  map_add' ω ω' := by
    have : zOf (ω + ω') = zOf ω + zOf ω' := by ext i j; apply Complex.ext <;> simp [zOf]
    funext p
    rw [this, Matrix.mul_add]
    by_cases h : p.1 = 0 <;> simp [h]
  map_smul' t ω := by
    have : zOf (t • ω) = (t : ℂ) • zOf ω := by ext i j; apply Complex.ext <;> simp [zOf]
    funext p
    rw [this, Matrix.mul_smul]
    by_cases h : p.1 = 0 <;> simp [h]

theorem zOf_rotate {N : ℕ} (V : Matrix (Fin N) (Fin N) ℂ) (ω : Draws N) : zOf (rotate V ω) = V * zOf ω := by
  ext i j; apply Complex.ext <;> simp [zOf, rotate]

theorem sum_sq {N : ℕ} (ω : Draws N) : ((∑ p, ω p ^ 2 : ℝ) : ℂ) = Matrix.trace ((zOf ω)ᴴ * zOf ω) := by
  rw [Fintype.sum_prod_type, Fin.sum_univ_two, Fintype.sum_prod_type, Fintype.sum_prod_type, ← Finset.sum_add_distrib, Finset.sum_congr rfl fun i _ => (Finset.sum_add_distrib).symm,
    Finset.sum_comm, Matrix.trace]
  push_cast
  refine Finset.sum_congr rfl fun j _ => ?_
  rw [diag_apply, mul_apply]
  refine Finset.sum_congr rfl fun i _ => ?_
  rw [conjTranspose_apply, RCLike.star_def, Complex.conj_mul']
  have : ‖zOf ω i j‖ ^ 2 = ω (0, i, j) ^ 2 + ω (1, i, j) ^ 2 := by
    rw [← Complex.normSq_eq_norm_sq, Complex.normSq_apply]; simp [zOf]; ring
  exact_mod_cast this.symm

theorem rotate_sq {N : ℕ} (V : Matrix (Fin N) (Fin N) ℂ) (hV : V ∈ unitaryGroup (Fin N) ℂ) (ω : Draws N) : ∑ p, rotate V ω p ^ 2 = ∑ p, ω p ^ 2 := by
  have h1 : Vᴴ * V = 1 := mem_unitaryGroup_iff'.mp hV
  have : ((∑ p, rotate V ω p ^ 2 : ℝ) : ℂ) = ((∑ p, ω p ^ 2 : ℝ) : ℂ) := by
    rw [sum_sq, sum_sq, zOf_rotate, conjTranspose_mul, Matrix.mul_assoc, ← Matrix.mul_assoc Vᴴ, h1, Matrix.one_mul]
  exact_mod_cast this

/-- the rotation as an isometry -/
noncomputable def rotateIso {N : ℕ} (V : Matrix (Fin N) (Fin N) ℂ) (hV : V ∈ unitaryGroup (Fin N) ℂ) :
    EuclideanSpace ℝ (Fin 2 × Fin N × Fin N) ≃ₗᵢ[ℝ] EuclideanSpace ℝ (Fin 2 × Fin N × Fin N) :=
  LinearIsometry.toLinearIsometryEquiv
    { toLinearMap := (WithLp.linearEquiv 2 ℝ (Draws N)).symm.toLinearMap ∘ₗ rotate V ∘ₗ (WithLp.linearEquiv 2 ℝ (Draws N)).toLinearMap
      norm_map' := by
        intro x
        rw [EuclideanSpace.norm_eq, EuclideanSpace.norm_eq]
        congr 1
        simpa using rotate_sq V hV (WithLp.ofLp x) } rfl

theorem rotate_preserving {N : ℕ} (V : Matrix (Fin N) (Fin N) ℂ) (hV : V ∈ unitaryGroup (Fin N) ℂ) (A : Set (Draws N)) :
    normalDraws N (rotate V ⁻¹' A) = normalDraws N A := by
  set E := EuclideanSpace ℝ (Fin 2 × Fin N × Fin N)
  have h1 : MeasurePreserving (MeasurableEquiv.toLp 2 (Draws N)) (normalDraws N) (stdGaussian E) :=
    ⟨(MeasurableEquiv.toLp 2 (Draws N)).measurable, map_pi_eq_stdGaussian⟩
  have h2 : MeasurePreserving (rotateIso V hV).toHomeomorph.toMeasurableEquiv (stdGaussian E) (stdGaussian E) :=
    ⟨(rotateIso V hV).toHomeomorph.toMeasurableEquiv.measurable, stdGaussian_map (rotateIso V hV)⟩
  have e1 := h1.measure_preimage_equiv ((MeasurableEquiv.toLp 2 (Draws N)).symm ⁻¹' A)
  have e2 := h2.measure_preimage_equiv ((MeasurableEquiv.toLp 2 (Draws N)).symm ⁻¹' A)
  have e3 := h1.measure_preimage_equiv ((rotateIso V hV).toHomeomorph.toMeasurableEquiv ⁻¹' ((MeasurableEquiv.toLp 2 (Draws N)).symm ⁻¹' A))
  rw [e2, ← e1] at e3
  have a1 : (MeasurableEquiv.toLp 2 (Draws N)) ⁻¹' ((MeasurableEquiv.toLp 2 (Draws N)).symm ⁻¹' A) = A := by ext x; simp
  rw [a1] at e3
  rw [← e3]
  rfl

/-- C50: the law of `random_interferometer` is invariant under multiplication by any unitary `V` (by any orthogonal `V` with `real=True`): the
distribution is the Haar measure.  This holds for every set of matrices, and for every implementation of the QR decomposition. -/
theorem randomInterferometer_haar (lib : Draws N → Lib) (hl : ∀ ω, LibOk (lib ω)) (hrng : ∀ ω, (lib ω).rng = rngOf N ω) (real : Bool)
    (V : Matrix (Fin N) (Fin N) ℂ) (hV : V ∈ unitaryGroup (Fin N) ℂ) (hreal : real = true → ∀ i j, (V i j).im = 0) (B : Set (Matrix (Fin N) (Fin N) ℂ)) :
    normalDraws N {ω | ∃ U k, randomInterferometer (lib ω) N real 0 = some (U, k) ∧ V * toMatrix N N U ∈ B} =
      normalDraws N {ω | ∃ U k, randomInterferometer (lib ω) N real 0 = some (U, k) ∧ toMatrix N N U ∈ B} := by
  have hset : ∀ C : Set (Matrix (Fin N) (Fin N) ℂ), {ω | ∃ U k, randomInterferometer (lib ω) N real 0 = some (U, k) ∧ toMatrix N N U ∈ C} =
      {ω | ∃ U, IsPositiveQR (ginibre (rngOf N ω) real N 0) U ∧ U ∈ C} := by
    intro C
    ext ω
    simp only [Set.mem_ofPred_eq]
    constructor
    · rintro ⟨U, k, h, hC⟩
      obtain ⟨-, -, h2, -⟩ := randomInterferometer_correct (lib ω) (hl ω) N real 0 k U h
      rw [hrng] at h2
      exact ⟨_, h2, hC⟩
    · rintro ⟨W, hW, hC⟩
      obtain ⟨⟨U, k⟩, h⟩ := (randomInterferometer_defined (lib ω) (hl ω) N real 0).mpr (by rw [hrng]; exact positiveQR_det _ _ hW)
      obtain ⟨-, -, h2, -⟩ := randomInterferometer_correct (lib ω) (hl ω) N real 0 k U h
      rw [hrng] at h2
      refine ⟨U, k, h, ?_⟩
      rw [positiveQR_unique _ _ _ h2 hW]; exact hC
  have h1 := hset ((fun U => V * U) ⁻¹' B)
  simp only [Set.mem_preimage] at h1
  rw [h1, hset B, ← rotate_preserving V hV {ω | ∃ U, IsPositiveQR (ginibre (rngOf N ω) real N 0) U ∧ U ∈ B}]
  congr 1
  have hg : ∀ ω, ginibre (rngOf N (rotate V ω)) real N 0 = V * ginibre (rngOf N ω) real N 0 := by
    intro ω
    cases real with
    | false => rw [ginibre_rngOf_false, ginibre_rngOf_false, zOf_rotate, Matrix.mul_smul]
    | true =>
      rw [ginibre_rngOf_true, ginibre_rngOf_true]
      ext i j
      simp only [rotate, LinearMap.coe_mk, AddHom.coe_mk, of_apply, if_true, mul_apply]
      rw [Complex.re_sum]
      push_cast
      refine Finset.sum_congr rfl fun l _ => ?_
      have hr := hreal rfl i l
      have : V i l = ((V i l).re : ℂ) := by apply Complex.ext <;> simp [hr]
      rw [Complex.mul_re, hr, zero_mul, sub_zero, this]
      simp [zOf]
  have hVi : Vᴴ ∈ unitaryGroup (Fin N) ℂ := by
    rw [mem_unitaryGroup_iff, star_eq_conjTranspose, conjTranspose_conjTranspose]; exact mem_unitaryGroup_iff'.mp hV
  ext ω
  simp only [Set.mem_ofPred_eq, Set.mem_preimage]
  rw [hg]
  constructor
  · rintro ⟨U, hU, hB⟩
    exact ⟨V * U, positiveQR_mul _ _ V hV hU, hB⟩
  · rintro ⟨W, hW, hB⟩
    refine ⟨Vᴴ * W, ?_, ?_⟩
    · have := positiveQR_mul _ _ Vᴴ hVi hW
      rwa [← Matrix.mul_assoc, show Vᴴ * V = 1 from mem_unitaryGroup_iff'.mp hV, Matrix.one_mul] at this
    · rwa [← Matrix.mul_assoc, show V * Vᴴ = 1 from mem_unitaryGroup_iff.mp hV, Matrix.one_mul]

end Verif.Props
