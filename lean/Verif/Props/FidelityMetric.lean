/-
C100: the fidelity is symmetric and at most one, and it is one only for equal states.
-/
import Verif.Props.FidelityUnique

set_option linter.unusedSectionVars false
set_option linter.unusedSimpArgs false

namespace Verif.Props
open Verif.Model Verif.Model.Symp Verif.Model.Conv Verif.Model.Dec Verif.Model.Fid Verif.Spec Verif.Lemmas Verif.Lemmas.Symp Verif.Lemmas.Heis Verif.Lemmas.FPar Verif.Lemmas.Uhl Matrix

section diag
variable {I : Type} [DecidableEq I] {c : I → ℝ} (hc : ∀ j, 0 ≤ c j ∧ c j ≤ 1)

theorem dop_summable (hc : ∀ j, 0 ≤ c j ∧ c j ≤ 1) (f : L2 I) : Summable fun j => ‖(Real.sqrt (c j) : ℂ) * f j‖ ^ 2 := by
  have hs : Summable fun j => ‖f j‖ ^ 2 := by
    have h := (lp.memℓp f).summable (p := 2) (by norm_num)
    refine h.congr fun j => ?_
    norm_num
  refine Summable.of_nonneg_of_le (fun j => by positivity) (fun j => ?_) hs
  rw [norm_mul, mul_pow, Complex.norm_real, Real.norm_of_nonneg (Real.sqrt_nonneg _), Real.sq_sqrt (hc j).1]
  exact mul_le_of_le_one_left (by positivity) (hc j).2

/-- multiplication with a diagonal matrix of square roots -/
noncomputable def dop (f : L2 I) : L2 I := toL2 _ (dop_summable hc f)

theorem dop_apply (f : L2 I) (j : I) : dop hc f j = (Real.sqrt (c j) : ℂ) * f j := rfl

theorem dop_inner (f g : L2 I) : inner ℂ (dop hc f) g = inner ℂ f (dop hc g) := by
  rw [← (inner_fun _ _).tsum_eq, ← (inner_fun f _).tsum_eq]
  refine tsum_congr fun j => ?_
  rw [dop_apply, dop_apply, map_mul, Complex.conj_ofReal]
  ring

theorem dop_norm (f : L2 I) : HasSum (fun j => c j * ‖f j‖ ^ 2) (‖dop hc f‖ ^ 2) := by
  have h := inner_fun (dop hc f) (dop hc f)
  rw [inner_self_eq_norm_sq_to_K, ← RCLike.ofReal_pow] at h
  refine Complex.hasSum_ofReal.mp (h.congr_fun fun j => ?_)
  rw [Complex.conj_mul', dop_apply, norm_mul, Complex.norm_real, Real.norm_of_nonneg (Real.sqrt_nonneg _), ← Complex.ofReal_pow, mul_pow, Real.sq_sqrt (hc j).1]

/-- `∑ ‖√c v_k‖² ≤ ∑ c` for orthonormal vectors `v_k` -/
theorem dop_bessel {K : Type} (v : K → L2 I) (hv : Orthonormal ℂ v) {t : ℝ} (ht : HasSum c t) (s : Finset K) : ∑ k ∈ s, ‖dop hc (v k)‖ ^ 2 ≤ t := by
  have h := hasSum_sum fun k (_ : k ∈ s) => dop_norm hc (v k)
  refine hasSum_le (fun j => ?_) h ht
  rw [← Finset.mul_sum]
  refine mul_le_of_le_one_right (hc j).1 ?_
  have hb := hv.sum_inner_products_le (s := s) (x := (lp.single 2 j (1 : ℂ) : L2 I))
  have e : ‖(lp.single 2 j (1 : ℂ) : L2 I)‖ ^ 2 = 1 := by rw [lp.norm_single (by norm_num)]; simp
  rw [e] at hb
  refine le_trans (le_of_eq (Finset.sum_congr rfl fun k _ => ?_)) hb
  rw [lp.inner_single_right]
  simp [RCLike.inner_apply]

end diag

section abstract
variable {I : Type} [DecidableEq I] {ρ σ : I → I → ℂ} {p q r : I → ℝ} {U V W : I → I → ℂ}

theorem spectral_range (h : IsSpectral ρ p V) : ∀ m, 0 ≤ p m ∧ p m ≤ 1 := fun m => ⟨h.nonneg m, spectral_le_one h m⟩

/-- the vectors `√σ √ρ W_k` are orthogonal -/
theorem fidelity_vectors (hσ : IsSpectral σ r U) (h : IsSpectral ρ p V) (σ' : I → I → ℂ)
    (hσ' : ∀ m n, HasSum (fun x : I × I => (starRingEnd ℂ) (V x.1 m) * σ x.1 x.2 * V x.2 n) (σ' m n)) (hW : IsUnitaryFock W) (hq : ∀ k, 0 ≤ q k) (hqs : Summable q)
    (hM : ∀ m n, HasSum (fun k => ((q k : ℝ) : ℂ) * (W m k * (starRingEnd ℂ) (W n k))) ((Real.sqrt (p m) : ℂ) * σ' m n * (Real.sqrt (p n) : ℂ)))
    (bU bV bW : HilbertBasis I ℂ (L2 I)) (hbU : ∀ m x, bU m x = U x m) (hbV : ∀ m x, bV m x = V x m) (hbW : ∀ m x, bW m x = W x m) (k l : I) :
    inner ℂ (dop (spectral_range hσ) (bU.repr (bV.repr.symm (dop (spectral_range h) (bW k))))) (dop (spectral_range hσ) (bU.repr (bV.repr.symm (dop (spectral_range h) (bW l))))) = if k = l then (q k : ℂ) else 0 := by
  have hVa := adjoint_unitary h.unitary
  have hWa := adjoint_unitary hW
  have hX := mul_unitary hVa hσ.unitary
  have hmix : ∀ m n, HasSum (fun b => ((r b : ℝ) : ℂ) * (((Real.sqrt (p m) : ℂ) * ∑' x, (starRingEnd ℂ) (V x m) * U x b) * (starRingEnd ℂ) ((Real.sqrt (p n) : ℂ) * ∑' x, (starRingEnd ℂ) (V x n) * U x b))) ((Real.sqrt (p m) : ℂ) * σ' m n * (Real.sqrt (p n) : ℂ)) := by
    intro m n
    have h1 := (mixture_summable hX hσ.nonneg hσ.total.summable m n).hasSum
    have h2 := mixture_mul hVa hσ.unitary r hσ.nonneg hσ.total.summable σ hσ.expand m n _ h1
    have h3 : HasSum (fun x : I × I => (starRingEnd ℂ) (V x.1 m) * σ x.1 x.2 * V x.2 n) (∑' b, ((r b : ℝ) : ℂ) * ((∑' x, (starRingEnd ℂ) (V x m) * U x b) * (starRingEnd ℂ) (∑' x, (starRingEnd ℂ) (V x n) * U x b))) :=
      h2.congr_fun fun x => by rw [Complex.conj_conj]
    rw [(hσ' m n).unique h3]
    refine ((h1.mul_left (Real.sqrt (p m) : ℂ)).mul_right (Real.sqrt (p n) : ℂ)).congr_fun fun b => ?_
    rw [map_mul, Complex.conj_ofReal]
    ring
  have hsub : ∀ k b, Summable (fun m => ‖(starRingEnd ℂ) (W m k)‖ * ‖(Real.sqrt (p m) : ℂ) * ∑' x, (starRingEnd ℂ) (V x m) * U x b‖) ∧ ∑' m, ‖(starRingEnd ℂ) (W m k)‖ * ‖(Real.sqrt (p m) : ℂ) * ∑' x, (starRingEnd ℂ) (V x m) * U x b‖ ≤ 1 := by
    intro k b
    have h0 := row_col hWa hX k b
    have hle : ∀ m, ‖(starRingEnd ℂ) (W m k)‖ * ‖(Real.sqrt (p m) : ℂ) * ∑' x, (starRingEnd ℂ) (V x m) * U x b‖ ≤ ‖(starRingEnd ℂ) (W m k)‖ * ‖∑' x, (starRingEnd ℂ) (V x m) * U x b‖ := by
      intro m
      refine mul_le_mul_of_nonneg_left ?_ (norm_nonneg _)
      rw [norm_mul, Complex.norm_real, Real.norm_of_nonneg (Real.sqrt_nonneg _)]
      exact mul_le_of_le_one_left (norm_nonneg _) (Real.sqrt_le_one.mpr (spectral_le_one h m))
    have hs := Summable.of_nonneg_of_le (fun m => by positivity) hle h0.1
    exact ⟨hs, (hs.tsum_le_tsum hle h0.1).trans h0.2⟩
  have e1 := mixture_rows (u := fun m => (starRingEnd ℂ) (W m k)) (v := fun m => (starRingEnd ℂ) (W m l)) (fun b => row_col hWa hW k b) (fun b => row_col hWa hW l b) q hq hqs _ hM
  have e2 := mixture_rows (u := fun m => (starRingEnd ℂ) (W m k)) (v := fun m => (starRingEnd ℂ) (W m l)) (hsub k) (hsub l) r hσ.nonneg hσ.total.summable _ hmix
  have e3 := e2.unique e1
  have e4 : ∑' b, ((q b : ℝ) : ℂ) * ((∑' m, (starRingEnd ℂ) (W m k) * W m b) * (starRingEnd ℂ) (∑' m, (starRingEnd ℂ) (W m l) * W m b)) = if k = l then (q k : ℂ) else 0 := by
    rw [tsum_eq_single k]
    · rw [tsum_adj hW k k, tsum_adj hW l k, if_pos rfl]
      by_cases hkl : k = l
      · rw [if_pos hkl, if_pos hkl.symm]; simp
      · rw [if_neg hkl, if_neg (Ne.symm hkl)]; simp
    · intro b hb
      rw [tsum_adj hW k b, if_neg (Ne.symm hb)]; simp
  rw [e4] at e3
  rw [← e3, ← (inner_fun _ _).tsum_eq]
  have e5 : ∀ k j, bU.repr (bV.repr.symm (dop (spectral_range h) (bW k))) j = (starRingEnd ℂ) (∑' m, (starRingEnd ℂ) (W m k) * ((Real.sqrt (p m) : ℂ) * ∑' x, (starRingEnd ℂ) (V x m) * U x j)) := by
    intro k j
    rw [bU.repr_apply_apply, ← inner_conj_symm, ← (bV.hasSum_inner_mul_inner _ _).tsum_eq]
    congr 1
    refine tsum_congr fun m => ?_
    have e6 : inner ℂ (bV m) (bU j) = ∑' x, (starRingEnd ℂ) (V x m) * U x j := by
      rw [← (inner_fun (bV m) (bU j)).tsum_eq]
      exact tsum_congr fun x => by rw [hbV, hbU]
    rw [e6, ← inner_conj_symm, ← bV.repr_apply_apply, LinearIsometryEquiv.apply_symm_apply, dop_apply, hbW, map_mul, Complex.conj_ofReal]
    ring
  refine tsum_congr fun j => ?_
  rw [dop_apply, dop_apply, e5, e5, map_mul, Complex.conj_conj, Complex.conj_ofReal]
  have e7 : (Real.sqrt (r j) : ℂ) * (Real.sqrt (r j) : ℂ) = (r j : ℂ) := by rw [← Complex.ofReal_mul, Real.mul_self_sqrt (hσ.nonneg j)]
  linear_combination (∑' m, (starRingEnd ℂ) (W m k) * ((Real.sqrt (p m) : ℂ) * ∑' x, (starRingEnd ℂ) (V x m) * U x j)) * (starRingEnd ℂ) (∑' m, (starRingEnd ℂ) (W m l) * ((Real.sqrt (p m) : ℂ) * ∑' x, (starRingEnd ℂ) (V x m) * U x j)) * e7

/-- orthogonal vectors, normalised -/
theorem normalise (a : I → L2 I) (hq : ∀ k, 0 ≤ q k) (ho : ∀ k l, inner ℂ (a k) (a l) = if k = l then (q k : ℂ) else 0) :
    ∃ z : {k // q k ≠ 0} → L2 I, Orthonormal ℂ z ∧ ∀ k, inner ℂ (z k) (a k) = (Real.sqrt (q k) : ℂ) := by
  have h0 : ∀ k : {k // q k ≠ 0}, (Real.sqrt (q k) : ℂ) ≠ 0 := fun k => by
    rw [Complex.ofReal_ne_zero]
    exact (Real.sqrt_pos.mpr (lt_of_le_of_ne (hq k) (Ne.symm k.2))).ne'
  have h1 : ∀ k : I, (Real.sqrt (q k) : ℂ) * (Real.sqrt (q k) : ℂ) = q k := fun k => by rw [← Complex.ofReal_mul, Real.mul_self_sqrt (hq k)]
  refine ⟨fun k => (Real.sqrt (q k) : ℂ)⁻¹ • a k, ?_, fun k => ?_⟩
  · rw [orthonormal_iff_ite]
    intro k l
    rw [inner_smul_left, inner_smul_right, ho, map_inv₀, Complex.conj_ofReal]
    by_cases hkl : k = l
    · subst hkl
      rw [if_pos rfl, if_pos rfl, ← h1]
      field_simp [h0 k]
    · rw [if_neg hkl, if_neg (fun e => hkl (Subtype.ext e))]; simp
  · rw [inner_smul_left, ho, if_pos rfl, map_inv₀, Complex.conj_ofReal, ← h1]
    field_simp [h0 k]

theorem sum_sqrt_subtype (q : I → ℝ) (s : Finset I) : ∑ k ∈ s, Real.sqrt (q k) = ∑ k ∈ s.subtype (fun k => q k ≠ 0), Real.sqrt (q k) := by
  classical
  rw [Finset.sum_subtype_eq_sum_filter (f := fun k => Real.sqrt (q k)), Finset.sum_filter]
  refine Finset.sum_congr rfl fun k _ => ?_
  by_cases h : q k = 0
  · rw [if_neg (not_not.mpr h), h, Real.sqrt_zero]
  · rw [if_pos h]

/-- the singular values of an operator and of its adjoint have the same sum -/
theorem trace_le (a a' : I → L2 I) (q' : I → ℝ) (b b' : HilbertBasis I ℂ (L2 I)) (hq : ∀ k, 0 ≤ q k) (ho : ∀ k l, inner ℂ (a k) (a l) = if k = l then (q k : ℂ) else 0)
    (ho' : ∀ k l, inner ℂ (a' k) (a' l) = if k = l then (q' k : ℂ) else 0) (hadj : ∀ k l, inner ℂ (b' l) (a k) = inner ℂ (a' l) (b k))
    (t' : ℝ) (ht' : HasSum (fun k => Real.sqrt (q' k)) t') (s : Finset I) : ∑ k ∈ s, Real.sqrt (q k) ≤ t' := by
  obtain ⟨z, hz, hza⟩ := normalise a hq ho
  rw [sum_sqrt_subtype]
  set s' := s.subtype fun k => q k ≠ 0
  have h1 : HasSum (fun l => ∑ k ∈ s', inner ℂ (z k) (b' l) * inner ℂ (a' l) (b k)) (∑ k ∈ s', (Real.sqrt (q k) : ℂ)) := by
    refine hasSum_sum fun k _ => ?_
    rw [← hza k]
    refine (b'.hasSum_inner_mul_inner (z k) (a k)).congr_fun fun l => ?_
    rw [hadj]
  rw [← Complex.ofReal_sum] at h1
  refine hasSum_le (fun l => ?_) (Complex.hasSum_re h1) ht'
  have n1 : ∀ l, ‖a' l‖ ^ 2 = q' l := fun l => by
    have := ho' l l
    rw [if_pos rfl, inner_self_eq_norm_sq_to_K, ← RCLike.ofReal_pow] at this
    exact Complex.ofReal_inj.mp this
  calc (∑ k ∈ s', inner ℂ (z k) (b' l) * inner ℂ (a' l) (b k)).re ≤ ‖∑ k ∈ s', inner ℂ (z k) (b' l) * inner ℂ (a' l) (b k)‖ := Complex.re_le_norm _
    _ ≤ ∑ k ∈ s', ‖inner ℂ (z k) (b' l)‖ * ‖inner ℂ (b k) (a' l)‖ := by
      refine (norm_sum_le _ _).trans (le_of_eq (Finset.sum_congr rfl fun k _ => ?_))
      rw [norm_mul, norm_inner_symm (a' l)]
    _ ≤ Real.sqrt (∑ k ∈ s', ‖inner ℂ (z k) (b' l)‖ ^ 2) * Real.sqrt (∑ k ∈ s', ‖inner ℂ (b k) (a' l)‖ ^ 2) := Real.sum_mul_le_sqrt_mul_sqrt _ _ _
    _ ≤ 1 * Real.sqrt (q' l) := by
      refine mul_le_mul ?_ ?_ (Real.sqrt_nonneg _) zero_le_one
      · rw [Real.sqrt_le_one]
        refine (hz.sum_inner_products_le (s := s') (x := b' l)).trans ?_
        rw [b'.orthonormal.1 l]; norm_num
      · refine Real.sqrt_le_sqrt ?_
        rw [← n1]
        exact (b.orthonormal.comp (Subtype.val : {k // q k ≠ 0} → I) Subtype.val_injective).sum_inner_products_le (s := s') (x := a' l)
    _ = _ := one_mul _

theorem summable_of_sqrt (hq : ∀ k, 0 ≤ q k) {t : ℝ} (ht : HasSum (fun k => Real.sqrt (q k)) t) : Summable q := by
  have h1 := ht.summable.mul_of_nonneg ht.summable (fun k => Real.sqrt_nonneg _) fun k => Real.sqrt_nonneg _
  have h2 := h1.comp_injective (i := fun k : I => (k, k)) fun a b hab => (Prod.mk.inj hab).1
  exact h2.congr fun k => Real.mul_self_sqrt (hq k)

/-- the fidelity does not depend on the order of the states -/
theorem hasFidelity_symm {F F' : ℝ} (h : HasFidelity ρ σ F) (h' : HasFidelity σ ρ F') : F = F' := by
  obtain ⟨p, V, σ1, q, W, t, hp, hs, hW, hq, hM, ht, rfl⟩ := h
  obtain ⟨p', V', σ2, q', W', t', hp', hs', hW', hq', hM', ht', rfl⟩ := h'
  obtain ⟨bV, hbV⟩ := exists_basis hp.unitary
  obtain ⟨bU, hbU⟩ := exists_basis hp'.unitary
  obtain ⟨b, hb⟩ := exists_basis hW
  obtain ⟨b', hb'⟩ := exists_basis hW'
  have o1 := fidelity_vectors hp' hp σ1 hs hW hq (summable_of_sqrt hq ht) hM bU bV b hbU hbV hb
  have o2 := fidelity_vectors hp hp' σ2 hs' hW' hq' (summable_of_sqrt hq' ht') hM' bV bU b' hbV hbU hb'
  have hadj : ∀ k l, inner ℂ (b' l) (dop (spectral_range hp') (bU.repr (bV.repr.symm (dop (spectral_range hp) (b k))))) = inner ℂ (dop (spectral_range hp) (bV.repr (bU.repr.symm (dop (spectral_range hp') (b' l))))) (b k) := by
    intro k l
    rw [← dop_inner (spectral_range hp') (b' l), dop_inner (spectral_range hp) _ (b k), ← bU.repr.symm.inner_map_map, LinearIsometryEquiv.symm_apply_apply, ← bV.repr.inner_map_map, LinearIsometryEquiv.apply_symm_apply]
  have hadj' : ∀ k l, inner ℂ (b l) (dop (spectral_range hp) (bV.repr (bU.repr.symm (dop (spectral_range hp') (b' k))))) = inner ℂ (dop (spectral_range hp') (bU.repr (bV.repr.symm (dop (spectral_range hp) (b l))))) (b' k) := by
    intro k l
    rw [← inner_conj_symm, ← hadj, inner_conj_symm]
  have h1 : t ≤ t' := hasSum_le_of_sum_le ht fun s => trace_le _ _ q' b b' hq o1 o2 hadj t' ht' s
  have h2 : t' ≤ t := hasSum_le_of_sum_le ht' fun s => trace_le _ _ q b' b hq' o2 o1 hadj' t ht s
  rw [le_antisymm h1 h2]

/-- `2 Re ⟨x, y⟩ = ‖x‖² + ‖y‖² - ‖x - y‖²` -/
theorem polar (x y : L2 I) {c : ℝ} (h : inner ℂ x y = (c : ℂ)) : 2 * c = ‖x‖ ^ 2 + ‖y‖ ^ 2 - ‖x - y‖ ^ 2 := by
  have e := @norm_sub_sq ℂ _ _ _ _ x y
  rw [h] at e
  have : RCLike.re (c : ℂ) = c := Complex.ofReal_re c
  rw [this] at e
  linarith

/-- the traces of density matrices -/
theorem spectral_trace (h : IsSpectral ρ p V) : HasSum (fun x => (ρ x x).re) 1 := by
  have hr : ∀ x, HasSum (fun m => p m * ‖V x m‖ ^ 2) ((ρ x x).re) := by
    intro x
    refine (Complex.hasSum_re (h.expand x x)).congr_fun fun m => ?_
    rw [Complex.mul_conj', ← Complex.ofReal_pow, ← Complex.ofReal_mul, Complex.ofReal_re]
  have hcol : ∀ m, HasSum (fun x => p m * ‖V x m‖ ^ 2) (p m) := by
    intro m
    have hc := h.unitary.cols m m
    rw [if_pos rfl, ← Complex.ofReal_one] at hc
    have h2 : HasSum (fun x => ‖V x m‖ ^ 2) 1 := by
      refine Complex.hasSum_ofReal.mp (hc.congr_fun fun x => ?_)
      rw [Complex.conj_mul']; push_cast; rfl
    simpa using h2.mul_left (p m)
  have hs : Summable fun y : I × I => p y.1 * ‖V y.2 y.1‖ ^ 2 := by
    rw [summable_prod_of_nonneg (f := fun y : I × I => p y.1 * ‖V y.2 y.1‖ ^ 2) fun y => mul_nonneg (h.nonneg _) (sq_nonneg _)]
    refine ⟨fun m => (hcol m).summable, ?_⟩
    refine h.total.summable.congr fun m => ?_
    exact (hcol m).tsum_eq.symm
  have h1 := hs.hasSum
  have h2 := h1.prod_fiberwise hcol
  rw [h2.unique h.total] at h1
  exact ((Equiv.prodComm I I).hasSum_iff.mpr h1).prod_fiberwise hr

/-- the rows of `√ρ` -/
theorem spectral_rows (h : IsSpectral ρ p V) (bV : HilbertBasis I ℂ (L2 I)) (hbV : ∀ m x, bV m x = V x m) (x y : I) :
    inner ℂ (dop (spectral_range h) (bV.repr (lp.single 2 x (1 : ℂ)))) (dop (spectral_range h) (bV.repr (lp.single 2 y (1 : ℂ)))) = ρ x y := by
  have e : ∀ x m, bV.repr (lp.single 2 x (1 : ℂ)) m = (starRingEnd ℂ) (V x m) := fun x m => by
    rw [bV.repr_apply_apply, lp.inner_single_right]
    simp only [RCLike.inner_apply, one_mul, hbV]
  refine (inner_fun _ _).unique ((h.expand x y).congr_fun fun m => ?_)
  rw [dop_apply, dop_apply, e, e, map_mul, Complex.conj_conj, Complex.conj_ofReal]
  have e7 : (Real.sqrt (p m) : ℂ) * (Real.sqrt (p m) : ℂ) = (p m : ℂ) := by rw [← Complex.ofReal_mul, Real.mul_self_sqrt (h.nonneg m)]
  linear_combination V x m * (starRingEnd ℂ) (V y m) * e7

/-- orthonormal vectors that exhaust the norms of two vectors exhaust their inner product -/
theorem parseval {K : Type} (z : K → L2 I) (hz : Orthonormal ℂ z) (u v : L2 I) (hu : HasSum (fun k => ‖inner ℂ (z k) u‖ ^ 2) (‖u‖ ^ 2)) : HasSum (fun k => inner ℂ v (z k) * inner ℂ (z k) u) (inner ℂ v u) := by
  have h : HasSum (fun k => inner ℂ (z k) u • z k) u := by
    have h1 : Filter.Tendsto (fun s : Finset K => ‖u‖ ^ 2 - ∑ k ∈ s, ‖inner ℂ (z k) u‖ ^ 2) Filter.atTop (nhds 0) := by
      have := hu.const_sub (‖u‖ ^ 2)
      rwa [sub_self] at this
    have h2 : ∀ s : Finset K, ‖u‖ ^ 2 - ∑ k ∈ s, ‖inner ℂ (z k) u‖ ^ 2 = ‖(∑ k ∈ s, inner ℂ (z k) u • z k) - u‖ ^ 2 := by
      intro s
      have e1 : inner ℂ (∑ k ∈ s, inner ℂ (z k) u • z k) u = ((∑ k ∈ s, ‖inner ℂ (z k) u‖ ^ 2 : ℝ) : ℂ) := by
        rw [sum_inner]
        push_cast
        refine Finset.sum_congr rfl fun k _ => ?_
        rw [inner_smul_left, Complex.conj_mul']
      have e2 : ‖∑ k ∈ s, inner ℂ (z k) u • z k‖ ^ 2 = ∑ k ∈ s, ‖inner ℂ (z k) u‖ ^ 2 := by
        have e3 := hz.inner_sum (fun k => inner ℂ (z k) u) (fun k => inner ℂ (z k) u) s
        rw [inner_self_eq_norm_sq_to_K, ← RCLike.ofReal_pow] at e3
        apply Complex.ofReal_inj.mp
        refine e3.trans ?_
        push_cast
        exact Finset.sum_congr rfl fun k _ => by rw [Complex.conj_mul']
      have e4 := polar _ _ e1
      rw [e2] at e4
      linarith
    simp only [h2] at h1
    rw [HasSum, SummationFilter.unconditional_filter, tendsto_iff_norm_sub_tendsto_zero]
    have h3 := (Real.continuous_sqrt.tendsto 0).comp h1
    rw [Real.sqrt_zero] at h3
    refine h3.congr fun s => ?_
    simp only [Function.comp_apply]
    exact Real.sqrt_sq (norm_nonneg _)
  have h4 := h.mapL (innerSL ℂ v)
  refine h4.congr_fun fun k => ?_
  simp only [innerSL_apply_apply, inner_smul_right]
  ring

/-- the fidelity of two density matrices is at most one, and it is one only if they are equal -/
theorem hasFidelity_bound (hσ : IsSpectral σ r U) {F : ℝ} (h : HasFidelity ρ σ F) : 0 ≤ F ∧ F ≤ 1 ∧ (F = 1 → ρ = σ) := by
  obtain ⟨p, V, σ1, q, W, t, hp, hs, hW, hq, hM, ht, rfl⟩ := h
  obtain ⟨bV, hbV⟩ := exists_basis hp.unitary
  obtain ⟨bU, hbU⟩ := exists_basis hσ.unitary
  obtain ⟨b, hb⟩ := exists_basis hW
  have o1 := fidelity_vectors hσ hp σ1 hs hW hq (summable_of_sqrt hq ht) hM bU bV b hbU hbV hb
  obtain ⟨y, hy⟩ : ∃ y : I → L2 I, y = fun k => bU.repr (bV.repr.symm (dop (spectral_range hp) (b k))) := ⟨_, rfl⟩
  have o2 : ∀ k l, inner ℂ (dop (spectral_range hσ) (y k)) (dop (spectral_range hσ) (y l)) = if k = l then (q k : ℂ) else 0 := by rw [hy]; exact o1
  obtain ⟨z, hz, hza⟩ := normalise (fun k => dop (spectral_range hσ) (y k)) hq o2
  have hyn : ∀ k, ‖y k‖ = ‖dop (spectral_range hp) (b k)‖ := fun k => by rw [hy]; simp only [LinearIsometryEquiv.norm_map]
  have hy1 : ∀ s : Finset I, ∑ k ∈ s, ‖y k‖ ^ 2 ≤ 1 := fun s => by
    simp only [hyn]
    exact dop_bessel _ b b.orthonormal hp.total s
  have hy2 : ∀ s : Finset {k // q k ≠ 0}, ∑ k ∈ s, ‖y k‖ ^ 2 ≤ 1 := fun s => by
    simp only [hyn]
    exact dop_bessel _ (fun k : {k // q k ≠ 0} => b k) (b.orthonormal.comp _ Subtype.val_injective) hp.total s
  have hz1 : ∀ s : Finset {k // q k ≠ 0}, ∑ k ∈ s, ‖dop (spectral_range hσ) (z k)‖ ^ 2 ≤ 1 := fun s => dop_bessel _ z hz hσ.total s
  have hkey : ∀ k : {k // q k ≠ 0}, 2 * Real.sqrt (q k) = ‖dop (spectral_range hσ) (z k)‖ ^ 2 + ‖y k‖ ^ 2 - ‖dop (spectral_range hσ) (z k) - y k‖ ^ 2 := fun k => polar _ _ (by
    rw [dop_inner]; exact hza k)
  have hfin : ∀ s : Finset I, 2 * ∑ k ∈ s, Real.sqrt (q k) = ∑ k ∈ s.subtype (fun k => q k ≠ 0), ‖dop (spectral_range hσ) (z k)‖ ^ 2 + ∑ k ∈ s.subtype (fun k => q k ≠ 0), ‖y k‖ ^ 2 -
      ∑ k ∈ s.subtype (fun k => q k ≠ 0), ‖dop (spectral_range hσ) (z k) - y k‖ ^ 2 := by
    intro s
    rw [sum_sqrt_subtype, Finset.mul_sum, ← Finset.sum_add_distrib, ← Finset.sum_sub_distrib]
    exact Finset.sum_congr rfl fun k _ => hkey k
  have hn0 : ∀ s : Finset {k // q k ≠ 0}, 0 ≤ ∑ k ∈ s, ‖dop (spectral_range hσ) (z k) - y k‖ ^ 2 := fun s => Finset.sum_nonneg fun k _ => sq_nonneg _
  have ht1 : t ≤ 1 := hasSum_le_of_sum_le ht fun s => by
    have := hfin s
    have h1 := hz1 (s.subtype fun k => q k ≠ 0)
    have h2 := hy2 (s.subtype fun k => q k ≠ 0)
    have h3 := hn0 (s.subtype fun k => q k ≠ 0)
    linarith
  have ht0 : 0 ≤ t := ht.nonneg fun k => Real.sqrt_nonneg _
  refine ⟨by positivity, by nlinarith, fun hF => ?_⟩
  have hte : t = 1 := by nlinarith
  -- the vectors agree
  have hA : ∀ k : {k // q k ≠ 0}, dop (spectral_range hσ) (z k) = y k := by
    intro k
    have h1 : t ≤ 1 - ‖dop (spectral_range hσ) (z k) - y k‖ ^ 2 / 2 := hasSum_le_of_sum_le ht fun s => by
      have hle : ∑ k ∈ s, Real.sqrt (q k) ≤ ∑ k ∈ insert k.1 s, Real.sqrt (q k) := Finset.sum_le_sum_of_subset_of_nonneg (Finset.subset_insert _ _) fun _ _ _ => Real.sqrt_nonneg _
      have h0 := hfin (insert k.1 s)
      have h1 := hz1 ((insert k.1 s).subtype fun k => q k ≠ 0)
      have h2 := hy2 ((insert k.1 s).subtype fun k => q k ≠ 0)
      have h3 := Finset.single_le_sum (f := fun k : {k // q k ≠ 0} => ‖dop (spectral_range hσ) (z k) - y k‖ ^ 2) (s := (insert k.1 s).subtype fun k => q k ≠ 0) (fun k _ => sq_nonneg _) (a := k) (by simp)
      linarith
    have h2 : ‖dop (spectral_range hσ) (z k) - y k‖ ^ 2 = 0 := le_antisymm (by linarith) (sq_nonneg _)
    exact sub_eq_zero.mp (norm_eq_zero.mp (pow_eq_zero_iff (by norm_num) |>.mp h2))
  have hB : ∀ k, q k = 0 → y k = 0 := by
    intro k hk
    have h1 : t ≤ 1 - ‖y k‖ ^ 2 / 2 := hasSum_le_of_sum_le ht fun s => by
      have h0 := hfin s
      have h1 := hz1 (s.subtype fun k => q k ≠ 0)
      have h3 := hn0 (s.subtype fun k => q k ≠ 0)
      have h2 := hy1 (insert k (s.filter fun k => q k ≠ 0))
      rw [Finset.sum_insert (by simp [hk]), ← Finset.sum_subtype_eq_sum_filter (f := fun k => ‖y k‖ ^ 2)] at h2
      linarith
    have h2 : ‖y k‖ ^ 2 = 0 := le_antisymm (by linarith) (sq_nonneg _)
    exact norm_eq_zero.mp (pow_eq_zero_iff (by norm_num) |>.mp h2)
  -- the matrix elements
  have hw : ∀ x k, inner ℂ (dop (spectral_range hp) (bV.repr (lp.single 2 x (1 : ℂ)))) (b k) = inner ℂ (bU.repr (lp.single 2 x (1 : ℂ))) (y k) := by
    intro x k
    rw [hy, dop_inner, LinearIsometryEquiv.inner_map_map, ← bV.repr.symm.inner_map_map, LinearIsometryEquiv.symm_apply_apply]
  have hw1 : ∀ x (k : {k // q k ≠ 0}), inner ℂ (dop (spectral_range hp) (bV.repr (lp.single 2 x (1 : ℂ)))) (b k) = inner ℂ (dop (spectral_range hσ) (bU.repr (lp.single 2 x (1 : ℂ)))) (z k) := by
    intro x k
    rw [hw, ← hA, dop_inner]
  have hsub : ∀ x x', HasSum (fun k => inner ℂ (dop (spectral_range hσ) (bU.repr (lp.single 2 x (1 : ℂ)))) (z k) * inner ℂ (z k) (dop (spectral_range hσ) (bU.repr (lp.single 2 x' (1 : ℂ))))) (ρ x x') := by
    intro x x'
    have h1 := b.hasSum_inner_mul_inner (dop (spectral_range hp) (bV.repr (lp.single 2 x (1 : ℂ)))) (dop (spectral_range hp) (bV.repr (lp.single 2 x' (1 : ℂ))))
    rw [spectral_rows hp bV hbV] at h1
    have h2 := (Function.Injective.hasSum_iff (Subtype.val_injective (p := fun k => q k ≠ 0)) (fun k hk => by
      have h0 : q k = 0 := by
        by_contra h0
        exact hk ⟨⟨k, h0⟩, rfl⟩
      rw [hw, hB k h0, inner_zero_right, zero_mul])).mpr h1
    refine h2.congr_fun fun k => ?_
    simp only [Function.comp_apply]
    rw [hw1, ← inner_conj_symm (b k.1), hw1, inner_conj_symm]
  have hdiag : ∀ x, HasSum (fun k => ‖inner ℂ (z k) (dop (spectral_range hσ) (bU.repr (lp.single 2 x (1 : ℂ))))‖ ^ 2) (ρ x x).re := by
    intro x
    refine (Complex.hasSum_re (hsub x x)).congr_fun fun k => ?_
    rw [← inner_conj_symm, RCLike.norm_conj, Complex.mul_conj', ← Complex.ofReal_pow, Complex.ofReal_re]
  have hnorm : ∀ x, ‖dop (spectral_range hσ) (bU.repr (lp.single 2 x (1 : ℂ)))‖ ^ 2 = (σ x x).re := by
    intro x
    rw [← spectral_rows hσ bU hbU, inner_self_eq_norm_sq_to_K, ← RCLike.ofReal_pow]
    exact (Complex.ofReal_re _).symm
  have hle : ∀ x, 0 ≤ (σ x x).re - (ρ x x).re := by
    intro x
    rw [sub_nonneg, ← hnorm]
    exact hasSum_le_of_sum_le (hdiag x) fun s => hz.sum_inner_products_le (s := s) (x := _)
  have hd := (spectral_trace hσ).sub (spectral_trace hp)
  rw [sub_self, hasSum_zero_iff_of_nonneg hle] at hd
  funext x x'
  have h1 : HasSum (fun k => ‖inner ℂ (z k) (dop (spectral_range hσ) (bU.repr (lp.single 2 x' (1 : ℂ))))‖ ^ 2) (‖dop (spectral_range hσ) (bU.repr (lp.single 2 x' (1 : ℂ)))‖ ^ 2) := by
    rw [hnorm, sub_eq_zero.mp (congrFun hd x')]
    exact hdiag x'
  have h2 := parseval z hz _ (dop (spectral_range hσ) (bU.repr (lp.single 2 x (1 : ℂ)))) h1
  rw [spectral_rows hσ bU hbU] at h2
  exact (hsub x x').unique h2

/-- a density matrix has fidelity one with itself -/
theorem hasFidelity_self (h : IsSpectral ρ p V) : HasFidelity ρ ρ 1 := by
  refine ⟨p, V, fun m n => if m = n then (p m : ℂ) else 0, fun k => p k * p k, fun m n => if m = n then 1 else 0, 1, h, fun m n => ?_, ⟨fun j k => ?_, fun j k => ?_⟩, fun k => mul_self_nonneg _, fun m n => ?_, ?_, by norm_num⟩
  · have hVa := adjoint_unitary h.unitary
    have h1 : HasSum (fun b => ((p b : ℝ) : ℂ) * ((∑' x, (starRingEnd ℂ) (V x m) * V x b) * (starRingEnd ℂ) (∑' x, (starRingEnd ℂ) (V x n) * V x b))) (if m = n then (p m : ℂ) else 0) := by
      refine (hasSum_ite_eq m (if m = n then (p m : ℂ) else 0)).congr_fun fun b => ?_
      rw [tsum_adj h.unitary m b, tsum_adj h.unitary n b]
      by_cases hb : b = m
      · subst hb
        by_cases hbn : b = n
        · simp [hbn]
        · simp [hbn, Ne.symm hbn]
      · simp [hb, Ne.symm hb]
    have h2 := mixture_mul hVa h.unitary p h.nonneg h.total.summable ρ h.expand m n _ h1
    exact h2.congr_fun fun x => by rw [Complex.conj_conj]
  · refine (hasSum_ite_eq j (if j = k then (1 : ℂ) else 0)).congr_fun fun i => ?_
    by_cases hi : i = j
    · subst hi; simp
    · simp [hi]
  · refine (hasSum_ite_eq j (if j = k then (1 : ℂ) else 0)).congr_fun fun i => ?_
    by_cases hi : i = j
    · subst hi; simp [eq_comm]
    · simp [hi, Ne.symm hi]
  · refine (hasSum_ite_eq m ((Real.sqrt (p m) : ℂ) * (if m = n then (p m : ℂ) else 0) * (Real.sqrt (p n) : ℂ))).congr_fun fun k => ?_
    by_cases hk : k = m
    · subst hk
      by_cases hkn : k = n
      · subst hkn
        have e7 : (Real.sqrt (p k) : ℂ) * (Real.sqrt (p k) : ℂ) = (p k : ℂ) := by rw [← Complex.ofReal_mul, Real.mul_self_sqrt (h.nonneg k)]
        simp only [if_true, map_one]
        push_cast
        linear_combination -(p k : ℂ) * e7
      · simp [hkn, Ne.symm hkn]
    · simp [hk, Ne.symm hk]
  · refine h.total.congr_fun fun k => ?_
    exact Real.sqrt_mul_self (h.nonneg k)

end abstract

end Verif.Props
