/-
C81: the Uhlmann fidelity is determined by the density matrices.
-/
import Verif.Props.FidelityState
import Mathlib.Analysis.InnerProductSpace.l2Space

set_option linter.unusedSectionVars false
set_option linter.unusedSimpArgs false

namespace Verif.Props
open Verif.Model Verif.Model.Symp Verif.Model.Conv Verif.Model.Dec Verif.Model.Fid Verif.Spec Verif.Lemmas Verif.Lemmas.Symp Verif.Lemmas.Heis Verif.Lemmas.FPar Verif.Lemmas.Uhl Matrix

section unique
variable {I : Type} [DecidableEq I] {ρ σ : I → I → ℂ} {p q r : I → ℝ} {U V W : I → I → ℂ}

/-- the columns of a unitary matrix are a basis -/
theorem exists_basis (hV : IsUnitaryFock V) : ∃ b : HilbertBasis I ℂ (L2 I), ∀ m x, b m x = V x m := by
  have hs := summable_of_cols hV.cols
  have ho := col_orthonormal hs hV.cols
  have ha := adjoint_unitary hV
  have hs' := summable_of_cols ha.cols
  obtain ⟨T, hT⟩ := exists_isometry hs' (col_orthonormal hs' ha.cols)
  refine ⟨HilbertBasis.mkOfOrthogonalEqBot ho ?_, fun m x => ?_⟩
  · rw [Submodule.eq_bot_iff]
    intro f hf
    have h0 : T f = 0 := by
      ext m
      refine (hT f m).unique ?_
      have h1 : inner ℂ (colL2 hs m) f = 0 := (Submodule.mem_orthogonal _ f).mp hf _ (Submodule.subset_span ⟨m, rfl⟩)
      have h2 := lp.hasSum_inner (𝕜 := ℂ) (colL2 hs m) f
      rw [h1] at h2
      refine h2.congr_fun fun x => ?_
      simp only [RCLike.inner_apply]
      rw [mul_comm]
      rfl
    exact T.injective (by rw [h0, map_zero])
  · rw [HilbertBasis.coe_mkOfOrthogonalEqBot]
    rfl

theorem inner_fun (f g : L2 I) : HasSum (fun x => (starRingEnd ℂ) (f x) * g x) (inner ℂ f g) := by
  have h := lp.hasSum_inner (𝕜 := ℂ) f g
  refine h.congr_fun fun i => ?_
  simp only [RCLike.inner_apply]
  rw [mul_comm]

theorem unitary_le_one (hV : IsUnitaryFock V) (i m : I) : ‖V i m‖ ≤ 1 := by
  have hr : HasSum (fun m => ‖V i m‖ ^ 2) 1 := by
    have h := hV.rows i i
    rw [if_pos rfl, ← Complex.ofReal_one] at h
    refine Complex.hasSum_ofReal.mp (h.congr_fun fun m => ?_)
    rw [Complex.conj_mul']; push_cast; rfl
  have h1 := le_hasSum hr m fun _ _ => sq_nonneg _
  nlinarith [norm_nonneg (V i m)]

theorem spectral_le_one (h : IsSpectral ρ p V) (m : I) : p m ≤ 1 := le_hasSum h.total m fun k _ => h.nonneg k

theorem sqrt_overlap (h : IsSpectral ρ p V) (h' : IsSpectral ρ q W) (m n : I) :
    (Real.sqrt (p m) : ℂ) * ∑' x, (starRingEnd ℂ) (V x m) * W x n = Real.sqrt (q n) * ∑' x, (starRingEnd ℂ) (V x m) * W x n := by
  have e := spectral_overlap h h' m n
  by_cases h0 : ∑' x, (starRingEnd ℂ) (V x m) * W x n = 0
  · rw [h0]; simp
  · rw [Complex.ofReal_inj.mp (mul_right_cancel₀ h0 e)]

/-- the rows of `√ρ` are in `ℓ²` -/
theorem sqrt_row (h : IsSpectral ρ p V) (i : I) : Summable fun m => ‖(starRingEnd ℂ) (V i m) * (Real.sqrt (p m) : ℂ)‖ ^ 2 := by
  have hs := summable_of_cols (adjoint_unitary h.unitary).cols i
  refine Summable.of_nonneg_of_le (fun m => by positivity) (fun m => ?_) hs
  rw [norm_mul, mul_pow, Complex.norm_real, Real.norm_of_nonneg (Real.sqrt_nonneg _), Real.sq_sqrt (h.nonneg m)]
  exact mul_le_of_le_one_right (by positivity) (spectral_le_one h m)

/-- the square root of a density matrix does not depend on the choice of the eigenvectors -/
theorem sqrt_apply (h : IsSpectral ρ p V) (h' : IsSpectral ρ q W) (hU : IsUnitaryFock U) (i b : I) :
    ∑' m, V i m * (Real.sqrt (p m) : ℂ) * ∑' x, (starRingEnd ℂ) (V x m) * U x b = ∑' n, W i n * (Real.sqrt (q n) : ℂ) * ∑' x, (starRingEnd ℂ) (W x n) * U x b := by
  obtain ⟨bV, hV⟩ := exists_basis h.unitary
  obtain ⟨bW, hW⟩ := exists_basis h'.unitary
  obtain ⟨bU, hbU⟩ := exists_basis hU
  have key : ∀ (p : I → ℝ) (V : I → I → ℂ) (h : IsSpectral ρ p V) (bV : HilbertBasis I ℂ (L2 I)) (hV : ∀ m x, bV m x = V x m),
      ∑' m, V i m * (Real.sqrt (p m) : ℂ) * ∑' x, (starRingEnd ℂ) (V x m) * U x b = inner ℂ (bV.repr.symm (toL2 _ (sqrt_row h i))) (bU b) := by
    intro p V h bV hV
    rw [← (bV.hasSum_inner_mul_inner _ _).tsum_eq]
    refine tsum_congr fun m => ?_
    have e1 : inner ℂ (bV m) (bU b) = ∑' x, (starRingEnd ℂ) (V x m) * U x b := by
      rw [← (inner_fun (bV m) (bU b)).tsum_eq]
      exact tsum_congr fun x => by rw [hV, hbU]
    have e2 : inner ℂ (bV.repr.symm (toL2 _ (sqrt_row h i))) (bV m) = V i m * (Real.sqrt (p m) : ℂ) := by
      rw [← inner_conj_symm, ← bV.repr_apply_apply, LinearIsometryEquiv.apply_symm_apply, toL2_apply, map_mul, Complex.conj_conj, Complex.conj_ofReal]
    rw [e1, e2]
  rw [key p V h bV hV, key q W h' bW hW]
  congr 1
  apply bV.repr.injective
  ext m
  rw [LinearIsometryEquiv.apply_symm_apply, toL2_apply, bV.repr_apply_apply, ← (bW.hasSum_inner_mul_inner _ _).tsum_eq]
  have e3 : ∀ n, inner ℂ (bV m) (bW n) * inner ℂ (bW n) (bW.repr.symm (toL2 _ (sqrt_row h' i))) = (Real.sqrt (p m) : ℂ) * (inner ℂ (bV m) (bW n) * inner ℂ (bW n) (lp.single 2 i (1 : ℂ) : L2 I)) := by
    intro n
    have e1 : inner ℂ (bV m) (bW n) = ∑' x, (starRingEnd ℂ) (V x m) * W x n := by
      rw [← (inner_fun (bV m) (bW n)).tsum_eq]
      exact tsum_congr fun x => by rw [hV, hW]
    have e2 : inner ℂ (bW n) (lp.single 2 i (1 : ℂ) : L2 I) = (starRingEnd ℂ) (W i n) := by
      rw [lp.inner_single_right]
      simp only [RCLike.inner_apply, one_mul, hW]
    rw [← bW.repr_apply_apply, LinearIsometryEquiv.apply_symm_apply, toL2_apply, e1, e2, ← mul_assoc (Real.sqrt (p m) : ℂ), sqrt_overlap h h' m n]
    ring
  rw [tsum_congr e3, tsum_mul_left, (bW.hasSum_inner_mul_inner _ _).tsum_eq, lp.inner_single_right]
  simp only [RCLike.inner_apply, one_mul, hV]
  rw [mul_comm]

/-- a mixture of the columns of `V`, multiplied by row vectors -/
theorem mixture_rows {V : I → I → ℂ} {u v : I → ℂ} (hu : ∀ b, Summable (fun m => ‖u m‖ * ‖V m b‖) ∧ ∑' m, ‖u m‖ * ‖V m b‖ ≤ 1) (hv : ∀ b, Summable (fun m => ‖v m‖ * ‖V m b‖) ∧ ∑' m, ‖v m‖ * ‖V m b‖ ≤ 1)
    (p : I → ℝ) (hp : ∀ m, 0 ≤ p m) (hs : Summable p) (ρ : I → I → ℂ)
    (hρ : ∀ i j, HasSum (fun b => ((p b : ℝ) : ℂ) * (V i b * (starRingEnd ℂ) (V j b))) (ρ i j)) :
    HasSum (fun x : I × I => u x.1 * ρ x.1 x.2 * (starRingEnd ℂ) (v x.2)) (∑' b, ((p b : ℝ) : ℂ) * ((∑' m, u m * V m b) * (starRingEnd ℂ) (∑' m, v m * V m b))) := by
  have hn : ∀ b (x : I × I), ‖((p b : ℝ) : ℂ) * (u x.1 * V x.1 b * (starRingEnd ℂ) (v x.2 * V x.2 b))‖ = p b * ((‖u x.1‖ * ‖V x.1 b‖) * (‖v x.2‖ * ‖V x.2 b‖)) := by
    intro b x
    rw [norm_mul, norm_mul, norm_mul, RCLike.norm_conj, norm_mul, Complex.norm_real, Real.norm_of_nonneg (hp b)]
  have hfib : ∀ b, Summable fun x : I × I => (‖u x.1‖ * ‖V x.1 b‖) * (‖v x.2‖ * ‖V x.2 b‖) := fun b =>
    (hu b).1.mul_of_nonneg (hv b).1 (fun m => by positivity) fun m => by positivity
  have hsum : Summable fun y : I × (I × I) => ((p y.1 : ℝ) : ℂ) * (u y.2.1 * V y.2.1 y.1 * (starRingEnd ℂ) (v y.2.2 * V y.2.2 y.1)) := by
    apply Summable.of_norm
    rw [summable_prod_of_nonneg (fun y => norm_nonneg _)]
    refine ⟨fun b => ?_, ?_⟩
    · simp only [hn]
      exact (hfib b).mul_left _
    · simp only [hn]
      refine Summable.of_nonneg_of_le (fun b => tsum_nonneg fun x => ?_) (fun b => ?_) hs
      · have := hp b; positivity
      · rw [tsum_mul_left, ← (hu b).1.tsum_mul_tsum (hv b).1 (hfib b)]
        have h1 := (hu b).2
        have h2 := (hv b).2
        have h3 : 0 ≤ ∑' m, ‖u m‖ * ‖V m b‖ := tsum_nonneg fun m => by positivity
        have h4 : 0 ≤ ∑' m, ‖v m‖ * ‖V m b‖ := tsum_nonneg fun m => by positivity
        exact mul_le_of_le_one_right (hp b) (mul_le_one₀ h1 h4 h2)
  have hs1 : ∀ b, Summable fun m => ‖u m * V m b‖ := fun b => (hu b).1.congr fun m => (norm_mul _ _).symm
  have hs2 : ∀ b, Summable fun m => ‖v m * V m b‖ := fun b => (hv b).1.congr fun m => (norm_mul _ _).symm
  have hb : ∀ b, HasSum (fun x : I × I => ((p b : ℝ) : ℂ) * (u x.1 * V x.1 b * (starRingEnd ℂ) (v x.2 * V x.2 b)))
      (((p b : ℝ) : ℂ) * ((∑' m, u m * V m b) * (starRingEnd ℂ) (∑' m, v m * V m b))) := by
    intro b
    have h1 := (hs1 b).of_norm.hasSum
    have h2 := Complex.hasSum_conj'.mpr (hs2 b).of_norm.hasSum
    have h3 : Summable fun x : I × I => (u x.1 * V x.1 b) * (starRingEnd ℂ) (v x.2 * V x.2 b) := by
      apply Summable.of_norm
      refine (hfib b).congr fun x => ?_
      rw [norm_mul, RCLike.norm_conj, norm_mul, norm_mul]
    exact (h1.mul h2 h3).mul_left _
  have htot := hsum.hasSum
  have e1 := htot.prod_fiberwise hb
  rw [← e1.tsum_eq] at htot
  have hsw := (Equiv.prodComm (I × I) I).hasSum_iff.mpr htot
  refine hsw.prod_fiberwise fun x => ?_
  have h5 := (hρ x.1 x.2).mul_left (u x.1 * (starRingEnd ℂ) (v x.2))
  have e : u x.1 * ρ x.1 x.2 * (starRingEnd ℂ) (v x.2) = u x.1 * (starRingEnd ℂ) (v x.2) * ρ x.1 x.2 := by ring
  rw [e]
  refine h5.congr_fun fun b => ?_
  simp only [Function.comp_apply, Equiv.prodComm_apply, Prod.swap_prod_mk, map_mul]
  ring

/-- a mixture converges -/
theorem mixture_summable (hV : IsUnitaryFock V) (hp : ∀ m, 0 ≤ p m) (hs : Summable p) (i j : I) : Summable fun b => ((p b : ℝ) : ℂ) * (V i b * (starRingEnd ℂ) (V j b)) := by
  apply Summable.of_norm
  refine Summable.of_nonneg_of_le (fun b => norm_nonneg _) (fun b => ?_) hs
  rw [norm_mul, norm_mul, RCLike.norm_conj, Complex.norm_real, Real.norm_of_nonneg (hp b)]
  exact mul_le_of_le_one_right (hp b) (mul_le_one₀ (unitary_le_one hV i b) (norm_nonneg _) (unitary_le_one hV j b))

/-- the matrix of `√ρ σ √ρ` from its eigenvalues, for all choices of the eigenvectors of `ρ`: `σ = ∑ r_b |U_b⟩⟨U_b|` gives `∑ r_b √ρ|U_b⟩⟨U_b|√ρ` -/
theorem fidelity_matrix (hσ : IsSpectral σ r U) (h : IsSpectral ρ p V) (σ' : I → I → ℂ)
    (hσ' : ∀ m n, HasSum (fun x : I × I => (starRingEnd ℂ) (V x.1 m) * σ x.1 x.2 * V x.2 n) (σ' m n)) (hW : IsUnitaryFock W) (hq : ∀ k, 0 ≤ q k) (hqs : Summable q)
    (hM : ∀ m n, HasSum (fun k => ((q k : ℝ) : ℂ) * (W m k * (starRingEnd ℂ) (W n k))) ((Real.sqrt (p m) : ℂ) * σ' m n * (Real.sqrt (p n) : ℂ))) (i j : I) :
    ∑' k, ((q k : ℝ) : ℂ) * ((∑' m, V i m * W m k) * (starRingEnd ℂ) (∑' m, V j m * W m k)) =
      ∑' b, ((r b : ℝ) : ℂ) * ((∑' m, V i m * (Real.sqrt (p m) : ℂ) * ∑' x, (starRingEnd ℂ) (V x m) * U x b) * (starRingEnd ℂ) (∑' m, V j m * (Real.sqrt (p m) : ℂ) * ∑' x, (starRingEnd ℂ) (V x m) * U x b)) := by
  have hVa := adjoint_unitary h.unitary
  have hX := mul_unitary hVa hσ.unitary
  have hmix : ∀ m n, HasSum (fun b => ((r b : ℝ) : ℂ) * ((∑' x, (starRingEnd ℂ) (V x m) * U x b) * (starRingEnd ℂ) (∑' x, (starRingEnd ℂ) (V x n) * U x b))) (σ' m n) := by
    intro m n
    have h1 := (mixture_summable hX hσ.nonneg hσ.total.summable m n).hasSum
    have h2 := mixture_mul hVa hσ.unitary r hσ.nonneg hσ.total.summable σ hσ.expand m n _ h1
    have h3 : HasSum (fun x : I × I => (starRingEnd ℂ) (V x.1 m) * σ x.1 x.2 * V x.2 n) (∑' b, ((r b : ℝ) : ℂ) * ((∑' x, (starRingEnd ℂ) (V x m) * U x b) * (starRingEnd ℂ) (∑' x, (starRingEnd ℂ) (V x n) * U x b))) :=
      h2.congr_fun fun x => by rw [Complex.conj_conj]
    rw [(hσ' m n).unique h3]
    exact h1
  have e1 := mixture_rows (u := fun m => V i m) (v := fun m => V j m) (fun b => row_col h.unitary hW i b) (fun b => row_col h.unitary hW j b) q hq hqs _ hM
  have hsub : ∀ i b, Summable (fun m => ‖V i m * (Real.sqrt (p m) : ℂ)‖ * ‖∑' x, (starRingEnd ℂ) (V x m) * U x b‖) ∧ ∑' m, ‖V i m * (Real.sqrt (p m) : ℂ)‖ * ‖∑' x, (starRingEnd ℂ) (V x m) * U x b‖ ≤ 1 := by
    intro i b
    have h0 := row_col h.unitary hX i b
    have hle : ∀ m, ‖V i m * (Real.sqrt (p m) : ℂ)‖ * ‖∑' x, (starRingEnd ℂ) (V x m) * U x b‖ ≤ ‖V i m‖ * ‖∑' x, (starRingEnd ℂ) (V x m) * U x b‖ := by
      intro m
      refine mul_le_mul_of_nonneg_right ?_ (norm_nonneg _)
      rw [norm_mul, Complex.norm_real, Real.norm_of_nonneg (Real.sqrt_nonneg _)]
      exact mul_le_of_le_one_right (norm_nonneg _) (Real.sqrt_le_one.mpr (spectral_le_one h m))
    have hs := Summable.of_nonneg_of_le (fun m => by positivity) hle h0.1
    exact ⟨hs, (hs.tsum_le_tsum hle h0.1).trans h0.2⟩
  have e2 := mixture_rows (u := fun m => V i m * (Real.sqrt (p m) : ℂ)) (v := fun m => V j m * (Real.sqrt (p m) : ℂ)) (hsub i) (hsub j) r hσ.nonneg hσ.total.summable σ' hmix
  refine e1.unique (e2.congr_fun fun x => ?_)
  rw [map_mul, Complex.conj_ofReal]
  ring

/-- eigenvectors of different eigenvalues are orthogonal -/
theorem mixture_overlap {A B : I → I → ℂ} (hA : IsUnitaryFock A) (hB : IsUnitaryFock B) (hp : ∀ m, 0 ≤ p m) (hq : ∀ m, 0 ≤ q m) (hps : Summable p) (hqs : Summable q) (M : I → I → ℂ)
    (h : ∀ i j, HasSum (fun b => ((p b : ℝ) : ℂ) * (A i b * (starRingEnd ℂ) (A j b))) (M i j)) (h' : ∀ i j, HasSum (fun b => ((q b : ℝ) : ℂ) * (B i b * (starRingEnd ℂ) (B j b))) (M i j)) (m n : I) :
    (p m : ℂ) * ∑' x, (starRingEnd ℂ) (A x m) * B x n = q n * ∑' x, (starRingEnd ℂ) (A x m) * B x n := by
  have hVa := adjoint_unitary hA
  have hWa := adjoint_unitary hB
  have ec : (starRingEnd ℂ) (∑' x, (starRingEnd ℂ) (B x n) * A x m) = ∑' x, (starRingEnd ℂ) (A x m) * B x n := by
    rw [Complex.conj_tsum]
    refine tsum_congr fun x => ?_
    rw [map_mul, Complex.conj_conj, mul_comm]
  have e1 := mixture_mul₂ hVa hWa hA p hp hps M h m n ((p m : ℂ) * ∑' x, (starRingEnd ℂ) (A x m) * B x n) (by
    have hs := hasSum_ite_eq m ((p m : ℂ) * ∑' x, (starRingEnd ℂ) (A x m) * B x n)
    refine hs.congr_fun fun b => ?_
    rw [tsum_adj hA m b]
    by_cases hb : b = m
    · subst hb
      rw [if_pos rfl, if_pos rfl, one_mul, ec]
    · rw [if_neg hb, if_neg (Ne.symm hb), zero_mul, mul_zero])
  have e2 := mixture_mul₂ hVa hWa hB q hq hqs M h' m n ((q n : ℂ) * ∑' x, (starRingEnd ℂ) (A x m) * B x n) (by
    have hs := hasSum_ite_eq n ((q n : ℂ) * ∑' x, (starRingEnd ℂ) (A x m) * B x n)
    refine hs.congr_fun fun b => ?_
    rw [tsum_adj hB n b]
    by_cases hb : b = n
    · subst hb
      rw [if_pos rfl, if_pos rfl, map_one, mul_one]
    · rw [if_neg hb, if_neg (Ne.symm hb), map_zero, mul_zero, mul_zero])
  exact e1.unique e2

/-- the trace of a function of a matrix does not depend on the choice of the eigenvectors -/
theorem mixture_trace {A B : I → I → ℂ} (hA : IsUnitaryFock A) (hB : IsUnitaryFock B) (hp : ∀ m, 0 ≤ p m) (hq : ∀ m, 0 ≤ q m) (hps : Summable p) (hqs : Summable q) (M : I → I → ℂ)
    (h : ∀ i j, HasSum (fun b => ((p b : ℝ) : ℂ) * (A i b * (starRingEnd ℂ) (A j b))) (M i j)) (h' : ∀ i j, HasSum (fun b => ((q b : ℝ) : ℂ) * (B i b * (starRingEnd ℂ) (B j b))) (M i j))
    (f : ℝ → ℝ) (hf : ∀ m, 0 ≤ f (p m)) (s t : ℝ) (hs : HasSum (fun m => f (p m)) s) (ht : HasSum (fun n => f (q n)) t) : s = t := by
  obtain ⟨o1, o2⟩ := overlap_sum hA hB
  refine doubly_sum (fun m n => ‖∑' x, (starRingEnd ℂ) (A x m) * B x n‖ ^ 2) (fun m n => by positivity) o1 o2 (fun m => f (p m)) (fun n => f (q n)) hf (fun m n => ?_) s t hs ht
  have e := mixture_overlap hA hB hp hq hps hqs M h h' m n
  by_cases h0 : ∑' x, (starRingEnd ℂ) (A x m) * B x n = 0
  · rw [h0]; simp
  · have := mul_right_cancel₀ h0 e
    rw [Complex.ofReal_inj.mp this]

/-- the fidelity is determined by the density matrices -/
theorem hasFidelity_unique (hσ : IsSpectral σ r U) {F F' : ℝ} (h : HasFidelity ρ σ F) (h' : HasFidelity ρ σ F') : F = F' := by
  obtain ⟨p, V, σ1, q, W, t, hp, hs, hW, hq, hM, ht, rfl⟩ := h
  obtain ⟨p', V', σ2, q', W', t', hp', hs', hW', hq', hM', ht', rfl⟩ := h'
  have sq : ∀ (q : I → ℝ) (t : ℝ), (∀ k, 0 ≤ q k) → HasSum (fun k => Real.sqrt (q k)) t → Summable q := by
    intro q t hq ht
    have h1 := ht.summable.mul_of_nonneg ht.summable (fun k => Real.sqrt_nonneg _) fun k => Real.sqrt_nonneg _
    have h2 := h1.comp_injective (i := fun k : I => (k, k)) fun a b hab => (Prod.mk.inj hab).1
    exact h2.congr fun k => Real.mul_self_sqrt (hq k)
  have hqs := sq q t hq ht
  have hqs' := sq q' t' hq' ht'
  have hA := mul_unitary hp.unitary hW
  have hB := mul_unitary hp'.unitary hW'
  have e : ∀ i j, ∑' k, ((q k : ℝ) : ℂ) * ((∑' m, V i m * W m k) * (starRingEnd ℂ) (∑' m, V j m * W m k)) = ∑' k, ((q' k : ℝ) : ℂ) * ((∑' m, V' i m * W' m k) * (starRingEnd ℂ) (∑' m, V' j m * W' m k)) := by
    intro i j
    rw [fidelity_matrix hσ hp σ1 hs hW hq hqs hM, fidelity_matrix hσ hp' σ2 hs' hW' hq' hqs' hM']
    refine tsum_congr fun b => ?_
    rw [sqrt_apply hp hp' hσ.unitary i b, sqrt_apply hp hp' hσ.unitary j b]
  have x1 := fun i j => (mixture_summable hA hq hqs i j).hasSum
  have x2 : ∀ i j, HasSum (fun k => ((q' k : ℝ) : ℂ) * ((∑' m, V' i m * W' m k) * (starRingEnd ℂ) (∑' m, V' j m * W' m k))) (∑' k, ((q k : ℝ) : ℂ) * ((∑' m, V i m * W m k) * (starRingEnd ℂ) (∑' m, V j m * W m k))) := by
    intro i j
    rw [e]
    exact (mixture_summable hB hq' hqs' i j).hasSum
  rw [mixture_trace hA hB hq hq' hqs hqs' _ x1 x2 Real.sqrt (fun m => Real.sqrt_nonneg _) t t' ht ht']

end unique

variable {N : ℕ}

/-- every physical Gaussian state has an orthonormal basis of eigenvectors -/
theorem gaussian_spectral (mu : ℕ → ℝ) (cov : RArr) (hbar : ℝ) (hh : 0 < hbar) (hph : Physical (phase N N cov) hbar) (ρ : (Fin N → ℕ) → (Fin N → ℕ) → ℂ) (hρ : IsFockMatrix N mu cov hbar ρ) :
    ∃ p V, IsSpectral ρ p V := by
  obtain ⟨ν, ⟨-, T, hT, hTν⟩, hν⟩ := sympSpectrum_physical _ hbar hh hph
  have hcov : phase N N cov = (hbar / 2) • (T * diagonal (Sum.elim ν ν) * Tᵀ) := by
    rw [← hTν, smul_smul]
    have : hbar / 2 * (2 / hbar) = 1 := by field_simp
    rw [this, one_smul]
  obtain ⟨V, hV⟩ := gaussianUnitary_exists hT (fun k => complexToReal N mu hbar k)
  have h0 : ∀ k, 0 ≤ (ν k - 1) / 2 := fun k => by linarith [hν k]
  exact ⟨_, V, hV.unitary, gaussian_thermal hT hV hbar hh ν hν mu cov hcov (mean_amp hh fun _ => rfl) ρ hρ, fun m => Finset.prod_nonneg fun k _ => thermalProb_nonneg _ (h0 k) _, thermal_summable _ h0⟩

/-- **C81** for every pair of physical Gaussian states of the same number of modes, `fidelity` returns `F` exactly if `F` is the Uhlmann fidelity `(Tr √(√ρ σ √ρ))²` of their density matrices. -/
theorem fidelity_correct {sqrtm : ℕ → RArr → RArr} (hsq : SqrtmDiagContract sqrtm) (close : ℝ → ℝ → Bool) (hc : ∀ x, close x 0 = true → x = 0) (mu1 mu2 : ℕ → ℝ) (cov1 cov2 : RArr) (hbar : ℝ) (hh : 0 < hbar)
    (hp1 : Physical (phase N N cov1) hbar) (hp2 : Physical (phase N N cov2) hbar) (ρ σ : (Fin N → ℕ) → (Fin N → ℕ) → ℂ) (hρ : IsFockMatrix N mu1 cov1 hbar ρ) (hσ : IsFockMatrix N mu2 cov2 hbar σ) (F : ℝ) :
    fidelity sqrtm close (2 * N) mu1 (2 * N) (2 * N) cov1 (2 * N) mu2 (2 * N) (2 * N) cov2 hbar = .ok F ↔ HasFidelity ρ σ F := by
  obtain ⟨F', hF', hr⟩ := fidelity_uhlmann hsq close hc mu1 mu2 cov1 cov2 hbar hh hp1 hp2 ρ σ hρ hσ
  obtain ⟨r, U, hU⟩ := gaussian_spectral mu2 cov2 hbar hh hp2 σ hσ
  rw [hr]
  constructor
  · intro h
    rw [← Except.ok.inj h]; exact hF'
  · intro h
    rw [hasFidelity_unique hU h hF']

/-- the hypotheses of `fidelity_correct` hold for a displaced two-mode squeezed vacuum and the vacuum -/
example (sqrtm : ℕ → RArr → RArr) (hs : SqrtmDiagContract sqrtm) (close : ℝ → ℝ → Bool) (hc : ∀ x, close x 0 = true → x = 0) : ∃ (ρ σ : (Fin 2 → ℕ) → (Fin 2 → ℕ) → ℂ) (F : ℝ),
    IsFockMatrix 2 (fun _ => 1) tmsExample 2 ρ ∧ HasFidelity ρ σ F ∧ fidelity sqrtm close 4 (fun _ => 1) 4 4 tmsExample 4 (vacuumState 2 2).mu 4 4 (vacuumState 2 2).cov 2 = .ok F := by
  have hp1 : Physical (phase 2 2 tmsExample) 2 := (physical_iff_spectrum _ 2 (by norm_num) _ tmsExample_spec).mpr fun _ => by norm_num
  have hp2 := (physical_vacuum 2 2 (by norm_num)).1
  obtain ⟨ρ, _, _, -, hρ, -⟩ := fock_gram (N := 2) (fun _ => 1) (by norm_num) hp1
  obtain ⟨σ, _, _, -, hσ, -⟩ := fock_gram (N := 2) (vacuumState 2 2).mu (by norm_num) hp2
  obtain ⟨F, hF, hr⟩ := fidelity_uhlmann (N := 2) hs close hc _ _ _ _ 2 (by norm_num) hp1 hp2 ρ σ hρ hσ
  exact ⟨ρ, σ, F, hρ, hF, hr⟩

end Verif.Props
