/-
Contractions between Hilbert spaces, for the monotonicity of the fidelity.
-/
import Verif.Lemmas.HeisUnitary
import Mathlib.Analysis.InnerProductSpace.l2Space
import Mathlib.Analysis.InnerProductSpace.Adjoint
import Mathlib.Analysis.InnerProductSpace.Projection.Basic
import Mathlib.Analysis.Normed.Operator.Extend

namespace Verif.Lemmas.Contr

noncomputable section

set_option linter.unusedSectionVars false

variable {E H : Type} [NormedAddCommGroup E] [InnerProductSpace ℂ E] [CompleteSpace E] [NormedAddCommGroup H] [InnerProductSpace ℂ H] [CompleteSpace H] {I J K : Type}

/-- two families with the same inner products are related by a contraction -/
theorem gram_contraction (f : I → E) (r : I → H) (h : ∀ i j, inner ℂ (f i) (f j) = inner ℂ (r i) (r j)) : ∃ W : E →L[ℂ] H, (∀ u, ‖W u‖ ≤ ‖u‖) ∧ ∀ i, W (f i) = r i := by
  classical
  let F : (I →₀ ℂ) →ₗ[ℂ] E := Finsupp.linearCombination ℂ f
  let R : (I →₀ ℂ) →ₗ[ℂ] H := Finsupp.linearCombination ℂ r
  have hn : ∀ c, ‖R c‖ = ‖F c‖ := by
    intro c
    have h1 : inner ℂ (R c) (R c) = inner ℂ (F c) (F c) := by
      simp only [F, R, Finsupp.linearCombination_apply, Finsupp.sum, sum_inner, inner_sum, inner_smul_left, inner_smul_right, h]
    rw [inner_self_eq_norm_sq_to_K, inner_self_eq_norm_sq_to_K, ← RCLike.ofReal_pow, ← RCLike.ofReal_pow] at h1
    exact (sq_eq_sq₀ (norm_nonneg _) (norm_nonneg _)).mp (Complex.ofReal_inj.mp h1)
  let S : Submodule ℂ E := (LinearMap.range F).topologicalClosure
  have hS : ∀ c, F c ∈ S := fun c => Submodule.le_topologicalClosure _ ⟨c, rfl⟩
  let e : (I →₀ ℂ) →ₗ[ℂ] S := F.codRestrict S hS
  have hd : DenseRange e := by
    intro x
    refine (closure_subtype (p := fun a => a ∈ S) (x := x) (s := Set.range e)).mpr ?_
    have hx : (x : E) ∈ closure (LinearMap.range F : Set E) := x.2
    refine closure_mono ?_ hx
    rintro _ ⟨c, rfl⟩
    exact ⟨e c, ⟨c, rfl⟩, rfl⟩
  have hS' : CompleteSpace S := (Submodule.isClosed_topologicalClosure _).completeSpace_coe
  have hb : ∀ c, ‖R c‖ ≤ 1 * ‖e c‖ := fun c => by rw [hn, one_mul]; exact le_rfl
  refine ⟨(R.extendOfNorm e).comp S.orthogonalProjectionOnto, fun u => ?_, fun i => ?_⟩
  · refine (LinearMap.norm_extendOfNorm_apply_le hd 1 hb _).trans ?_
    rw [one_mul]
    exact S.norm_orthogonalProjectionOnto_apply_le u
  · have e1 : F (Finsupp.single i 1) = f i := by simp [F]
    have e2 : S.orthogonalProjectionOnto (f i) = e (Finsupp.single i 1) := by
      rw [← e1]
      exact S.orthogonalProjectionOnto_mem_subspace_eq_self (e (Finsupp.single i 1))
    rw [ContinuousLinearMap.comp_apply, e2, LinearMap.extendOfNorm_eq hd ⟨1, hb⟩]
    simp [R]

/-- a contraction, applied to all components -/
theorem componentwise (C : E →L[ℂ] E) (hC : ∀ u, ‖C u‖ ≤ ‖u‖) : ∃ D : lp (fun _ : J => E) 2 →L[ℂ] lp (fun _ : J => E) 2, (∀ f j, D f j = C (f j)) ∧ ∀ f, ‖D f‖ ≤ ‖f‖ := by
  have hm : ∀ f : lp (fun _ : J => E) 2, Memℓp (fun j => C (f j)) 2 := fun f => by
    refine memℓp_gen ((lp.memℓp f).summable (by norm_num) |>.of_nonneg_of_le (fun j => by positivity) fun j => ?_)
    exact Real.rpow_le_rpow (norm_nonneg _) (hC _) (by norm_num)
  let L : lp (fun _ : J => E) 2 →ₗ[ℂ] lp (fun _ : J => E) 2 :=
    { toFun := fun f => ⟨fun j => C (f j), hm f⟩
      map_add' := fun f g => by ext j; simp; rfl
      map_smul' := fun c f => by ext j; simp }
  have hb : ∀ f, ‖L f‖ ≤ 1 * ‖f‖ := fun f => by
    rw [one_mul]
    have h1 := lp.norm_rpow_eq_tsum (p := 2) (by norm_num) (L f)
    have h2 := lp.norm_rpow_eq_tsum (p := 2) (by norm_num) f
    refine (Real.rpow_le_rpow_iff (norm_nonneg _) (norm_nonneg _) (z := (2 : ENNReal).toReal) (by norm_num)).mp ?_
    rw [h1, h2]
    exact ((lp.memℓp (L f)).summable (by norm_num)).tsum_le_tsum (fun j => Real.rpow_le_rpow (norm_nonneg _) (hC _) (by norm_num)) ((lp.memℓp f).summable (by norm_num))
  exact ⟨L.mkContinuous 1 hb, fun f j => rfl, fun f => by simpa using hb f⟩

/-- `∑ |w_k⟩⟨z_k|` is a contraction for orthonormal vectors -/
theorem finite_rank (w z : K → E) (hw : Orthonormal ℂ w) (hz : Orthonormal ℂ z) (s : Finset K) : ∃ C : E →L[ℂ] E, (∀ g, C g = ∑ k ∈ s, inner ℂ (z k) g • w k) ∧ ∀ g, ‖C g‖ ≤ ‖g‖ := by
  refine ⟨∑ k ∈ s, (innerSL ℂ (z k)).smulRight (w k), fun g => by simp, fun g => ?_⟩
  have e1 : (∑ k ∈ s, (innerSL ℂ (z k)).smulRight (w k)) g = ∑ k ∈ s, inner ℂ (z k) g • w k := by simp
  rw [e1]
  have e3 := hw.inner_sum (fun k => inner ℂ (z k) g) (fun k => inner ℂ (z k) g) s
  rw [inner_self_eq_norm_sq_to_K, ← RCLike.ofReal_pow] at e3
  have e2 : ‖∑ k ∈ s, inner ℂ (z k) g • w k‖ ^ 2 = ∑ k ∈ s, ‖inner ℂ (z k) g‖ ^ 2 := by
    apply Complex.ofReal_inj.mp
    refine e3.trans ?_
    push_cast
    exact Finset.sum_congr rfl fun k _ => by rw [Complex.conj_mul']
  refine (sq_le_sq₀ (norm_nonneg _) (norm_nonneg _)).mp ?_
  rw [e2]
  exact hz.sum_inner_products_le _

/-- `Re Tr (D G F†) ≤ ∑ σ(G F†)` for a contraction `D` -/
theorem trace_bound (b : HilbertBasis I ℂ E) (f g a : I → E) (hf : Summable fun i => ‖f i‖ ^ 2) (hg : Summable fun i => ‖g i‖ ^ 2)
    (ha : ∀ l v, HasSum (fun i => inner ℂ v (g i) * inner ℂ (f i) (b l)) (inner ℂ v (a l))) (D : E →L[ℂ] E) (hD : ∀ u, ‖D u‖ ≤ ‖u‖) {t : ℝ} (ht : HasSum (fun l => ‖a l‖) t) {T : ℂ}
    (hT : HasSum (fun i => inner ℂ (f i) (D (g i))) T) : T.re ≤ t := by
  have hpar : ∀ u : E, HasSum (fun l => ‖inner ℂ (b l) u‖ ^ 2) (‖u‖ ^ 2) := fun u => by
    have h := b.hasSum_inner_mul_inner u u
    rw [inner_self_eq_norm_sq_to_K, ← RCLike.ofReal_pow] at h
    refine Complex.hasSum_ofReal.mp (h.congr_fun fun l => ?_)
    rw [← inner_conj_symm u (b l), Complex.conj_mul', Complex.ofReal_pow]
  have hsq : ∀ h : I → E, (Summable fun i => ‖h i‖ ^ 2) → Summable fun x : I × I => ‖inner ℂ (b x.2) (h x.1)‖ ^ 2 := fun h hh => by
    rw [summable_prod_of_nonneg (fun x => by positivity)]
    exact ⟨fun i => (hpar (h i)).summable, hh.congr fun i => (hpar (h i)).tsum_eq.symm⟩
  have hDg : Summable fun i => ‖D (g i)‖ ^ 2 := hg.of_nonneg_of_le (fun i => by positivity) fun i => pow_le_pow_left₀ (norm_nonneg _) (hD _) 2
  have hG : Summable fun x : I × I => inner ℂ (f x.1) (b x.2) * inner ℂ (b x.2) (D (g x.1)) := by
    refine Summable.of_norm_bounded ((hsq f hf).add (hsq _ hDg)) fun x => ?_
    rw [norm_mul, norm_inner_symm (f x.1)]
    nlinarith [sq_nonneg (‖inner ℂ (b x.2) (f x.1)‖ - ‖inner ℂ (b x.2) (D (g x.1))‖), norm_nonneg (inner ℂ (b x.2) (f x.1)), norm_nonneg (inner ℂ (b x.2) (D (g x.1)))]
  have h1 : HasSum (fun x : I × I => inner ℂ (f x.1) (b x.2) * inner ℂ (b x.2) (D (g x.1))) T := by
    have h2 := hG.hasSum.prod_fiberwise fun i => b.hasSum_inner_mul_inner (f i) (D (g i))
    rw [hT.unique h2]
    exact hG.hasSum
  have h3 := ((Equiv.prodComm I I).hasSum_iff.mpr h1).prod_fiberwise (g := fun l => inner ℂ (b l) (D (a l))) fun l => by
    have h4 := ha l (D.adjoint (b l))
    rw [ContinuousLinearMap.adjoint_inner_left] at h4
    refine h4.congr_fun fun i => ?_
    rw [ContinuousLinearMap.adjoint_inner_left]
    simp only [Function.comp_apply, Equiv.prodComm_apply, Prod.swap]
    ring
  refine hasSum_le (fun l => ?_) (Complex.hasSum_re h3) ht
  refine (Complex.re_le_norm _).trans ((norm_inner_le_norm _ _).trans ?_)
  rw [b.orthonormal.1 l, one_mul]
  exact hD _

end

end Verif.Lemmas.Contr
