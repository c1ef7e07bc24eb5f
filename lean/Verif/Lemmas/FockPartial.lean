/-
Partial traces of Gaussian states in the Fock basis, for modes indexed by an arbitrary finite type.
-/
import Verif.Lemmas.FockTrace
import Verif.Lemmas.GaussInt
import Verif.Lemmas.Minor

namespace Verif.Lemmas.FPar
open MeasureTheory Matrix Verif.Lemmas.FTr Verif.Lemmas.GInt

variable {ι κ τ : Type} [Fintype ι] [DecidableEq ι] [Fintype κ] [DecidableEq κ] [Fintype τ] [DecidableEq τ]

noncomputable section

theorem hs_eq {σ M : Type} [AddCommMonoid M] [TopologicalSpace M] {f g : σ → M} {a b : M} (h : HasSum f a) (hf : ∀ x, g x = f x) (hab : b = a) : HasSum g b := by
  rw [hab, show g = f from funext hf]
  exact h

/-- quadratures of the coherent state -/
def cohQ (hbar : ℝ) (α : ι → ℂ) : ι ⊕ ι → ℝ := Real.sqrt (2 * hbar) • quads α

/-- the Husimi function of the Gaussian with means `m`, and `W` the covariance matrix plus `ħ/2` -/
def hus (m : ι ⊕ ι → ℝ) (W : Matrix (ι ⊕ ι) (ι ⊕ ι) ℝ) (hbar : ℝ) (α : ι → ℂ) : ℝ :=
  Real.exp (-((cohQ hbar α - m) ⬝ᵥ W⁻¹ *ᵥ (cohQ hbar α - m)) / 2) / Real.sqrt ((1 / hbar) • W).det

/-- amplitudes of the coherent state -/
def amp (α : ι → ℂ) (i : ι → ℕ) : ℂ := ∏ k, (starRingEnd ℂ) (α k) ^ i k / (Real.sqrt (i k).factorial : ℝ)

/-- `ρ` is the matrix of the Gaussian state -/
def IsFock (m : ι ⊕ ι → ℝ) (W : Matrix (ι ⊕ ι) (ι ⊕ ι) ℝ) (hbar : ℝ) (ρ : (ι → ℕ) → (ι → ℕ) → ℂ) : Prop :=
  ∀ α : ι → ℂ, HasSum (fun p : (ι → ℕ) × (ι → ℕ) => amp α p.1 * ρ p.1 p.2 * (starRingEnd ℂ) (amp α p.2))
    ((Real.exp (∑ k, ‖α k‖ ^ 2) * hus m W hbar α : ℝ) : ℂ)

/-- positive semi-definite -/
def IsPsd {σ : Type} (ρ : σ → σ → ℂ) : Prop :=
  ∀ (S : Finset σ) (w : σ → ℂ), ∃ r : ℝ, 0 ≤ r ∧ ∑ i ∈ S, ∑ j ∈ S, (starRingEnd ℂ) (w i) * ρ i j * w j = r

/-- restriction of a vector of quadratures to some of the modes -/
def resV (m : ι ⊕ ι → ℝ) (f : κ → ι) : κ ⊕ κ → ℝ := fun p => m (Sum.map f f p)

/-- restriction of a matrix of quadratures to some of the modes -/
def resM (W : Matrix (ι ⊕ ι) (ι ⊕ ι) ℝ) (f : κ → ι) : Matrix (κ ⊕ κ) (κ ⊕ κ) ℝ := W.submatrix (Sum.map f f) (Sum.map f f)

def shuf (κ τ : Type) : (κ ⊕ κ) ⊕ (τ ⊕ τ) ≃ (κ ⊕ τ) ⊕ (κ ⊕ τ) := Equiv.sumSumSumComm κ κ τ τ

theorem hus_marginal (m : (κ ⊕ τ) ⊕ (κ ⊕ τ) → ℝ) (W : Matrix ((κ ⊕ τ) ⊕ (κ ⊕ τ)) ((κ ⊕ τ) ⊕ (κ ⊕ τ)) ℝ) (hW : W.PosDef) (hbar : ℝ) (hh : 0 < hbar) (α : κ → ℂ) :
    ∫⁻ β : τ → ℂ, ENNReal.ofReal (hus m W hbar (Sum.elim α β)) =
      ENNReal.ofReal (Real.pi ^ Fintype.card τ * hus (resV m Sum.inl) (resM W Sum.inl) hbar α) := by
  set e := shuf κ τ with he
  set M := W.submatrix e e with hM
  set P := W⁻¹.submatrix e e with hP
  have hWu : IsUnit W.det := hW.det_pos.ne'.isUnit
  have hMP : M * P = 1 := by rw [hM, hP, submatrix_mul_equiv, Matrix.mul_nonsing_inv _ hWu, submatrix_one_equiv]
  have hPp : P.PosDef := hW.inv.submatrix e.injective
  have hP2 : P.toBlocks₂₂.PosDef := hPp.submatrix Sum.inr_injective
  have hM1 : M.toBlocks₁₁ = resM W Sum.inl := by
    ext p q
    rcases p with p | p <;> rcases q with q | q <;> rfl
  have hM1p : (resM W Sum.inl).PosDef := hW.submatrix (Sum.map_injective.mpr ⟨Sum.inl_injective, Sum.inl_injective⟩)
  have hdetM : M.det = W.det := det_submatrix_equiv_self e W
  have hjac : W.det * P.toBlocks₂₂.det = (resM W Sum.inl).det := by
    have := Minor.jacobi_minor M P hMP
    rwa [hdetM, hM1] at this
  set c := Real.sqrt (2 * hbar) with hc
  have hcp : 0 < c := Real.sqrt_pos.mpr (by positivity)
  set d1 : κ ⊕ κ → ℝ := cohQ hbar α - resV m Sum.inl with hd1
  set m2 : τ ⊕ τ → ℝ := resV m Sum.inr - P.toBlocks₂₂⁻¹ *ᵥ (P.toBlocks₂₁ *ᵥ d1) with hm2
  have hquad : ∀ β : τ → ℂ, (cohQ hbar (Sum.elim α β) - m) ⬝ᵥ W⁻¹ *ᵥ (cohQ hbar (Sum.elim α β) - m) =
      d1 ⬝ᵥ (resM W Sum.inl)⁻¹ *ᵥ d1 + (c • quads β - m2) ⬝ᵥ P.toBlocks₂₂ *ᵥ (c • quads β - m2) := by
    intro β
    set v := cohQ hbar (Sum.elim α β) - m with hv
    set d : (κ ⊕ κ) ⊕ (τ ⊕ τ) → ℝ := v ∘ e with hd
    have h1 : v ⬝ᵥ W⁻¹ *ᵥ v = d ⬝ᵥ P *ᵥ d := by
      rw [hP, submatrix_mulVec_equiv, hd, Function.comp_assoc, Equiv.self_comp_symm, Function.comp_id, comp_equiv_dotProduct_comp_equiv]
    have hsymm : Pᵀ = P := by
      have := hPp.1
      rwa [IsHermitian, conjTranspose_eq_transpose_of_trivial] at this
    have h2 : d ᵥ* P = P *ᵥ d := by rw [← mulVec_transpose, hsymm]
    have hl : (fun i => d (.inl i)) = d1 := by
      funext p
      rcases p with p | p <;> rfl
    have hr : (fun i => d (.inr i)) = c • quads β - resV m Sum.inr := by
      funext p
      rcases p with p | p <;> rfl
    have h22 : IsUnit P.toBlocks₂₂.det := hP2.det_pos.ne'.isUnit
    have h3 : (fun j => (P *ᵥ d) (.inr j)) = P.toBlocks₂₂ *ᵥ (c • quads β - m2) := by
      have hdd : d = Sum.elim d1 (c • quads β - resV m Sum.inr) := by
        rw [← hl, ← hr]
        funext p
        rcases p with p | p <;> rfl
      rw [hdd, ← fromBlocks_toBlocks P, fromBlocks_mulVec, toBlocks_fromBlocks₂₂, hm2, sub_sub_eq_add_sub, add_sub_right_comm, mulVec_add, mulVec_mulVec,
        Matrix.mul_nonsing_inv _ h22, one_mulVec]
      funext j
      simp only [Sum.elim_inr, Sum.elim_comp_inl, Sum.elim_comp_inr, Pi.add_apply]
      rw [add_comm]
    have h4 := Minor.schur_quad M P hMP hP2.det_pos.ne' d d
    rw [h1, h4, h2, h3, hl, hM1, mulVec_mulVec, Matrix.nonsing_inv_mul _ h22, one_mulVec, dotProduct_comm (P.toBlocks₂₂ *ᵥ _), add_comm]
  have hint := gauss_int P.toBlocks₂₂ hP2 c hcp m2
  have hpres := (quads_preserving (τ := τ)).lintegral_comp
    (f := fun y => ENNReal.ofReal (Real.exp (-((c • y - m2) ⬝ᵥ P.toBlocks₂₂ *ᵥ (c • y - m2)) / 2))) (by
      apply ENNReal.measurable_ofReal.comp
      apply Continuous.measurable
      simp only [dotProduct, mulVec, Pi.sub_apply, Pi.smul_apply]
      fun_prop)
  rw [hint] at hpres
  have hsplit : ∀ β : τ → ℂ, ENNReal.ofReal (hus m W hbar (Sum.elim α β)) =
      ENNReal.ofReal (Real.exp (-(d1 ⬝ᵥ (resM W Sum.inl)⁻¹ *ᵥ d1) / 2) / Real.sqrt ((1 / hbar) • W).det) *
        ENNReal.ofReal (Real.exp (-((c • quads β - m2) ⬝ᵥ P.toBlocks₂₂ *ᵥ (c • quads β - m2)) / 2)) := by
    intro β
    rw [← ENNReal.ofReal_mul (by positivity), hus, hquad, neg_add, add_div, Real.exp_add]
    congr 1
    ring
  simp only [hsplit]
  rw [lintegral_const_mul' _ _ ENNReal.ofReal_ne_top, hpres, ← ENNReal.ofReal_mul (by positivity), hus, ← hd1]
  congr 1
  have hk1 : Real.sqrt ((1 / hbar) • W).det = (1 / hbar) ^ (Fintype.card κ + Fintype.card τ) * Real.sqrt W.det := by
    rw [det_smul, Fintype.card_sum, Fintype.card_sum, ← two_mul, mul_comm 2, pow_mul, Real.sqrt_mul (by positivity), Real.sqrt_sq (by positivity)]
  have hk2 : Real.sqrt ((1 / hbar) • resM W Sum.inl).det = (1 / hbar) ^ Fintype.card κ * (Real.sqrt W.det * Real.sqrt P.toBlocks₂₂.det) := by
    rw [det_smul, Fintype.card_sum, ← two_mul, mul_comm 2, pow_mul, Real.sqrt_mul (by positivity), Real.sqrt_sq (by positivity), ← hjac, Real.sqrt_mul hW.det_pos.le]
  have hk3 : Real.sqrt (2 * Real.pi) ^ Fintype.card (τ ⊕ τ) = (2 * Real.pi) ^ Fintype.card τ := by
    rw [Fintype.card_sum, ← two_mul, pow_mul, Real.sq_sqrt (by positivity)]
  have hk4 : c ^ Fintype.card (τ ⊕ τ) = (2 * hbar) ^ Fintype.card τ := by
    rw [Fintype.card_sum, ← two_mul, pow_mul, hc, Real.sq_sqrt (by positivity)]
  have hs1 : Real.sqrt W.det ≠ 0 := (Real.sqrt_pos.mpr hW.det_pos).ne'
  have hs2 : Real.sqrt P.toBlocks₂₂.det ≠ 0 := (Real.sqrt_pos.mpr hP2.det_pos).ne'
  have hhn := hh.ne'
  rw [hk1, hk2, hk3, hk4, mul_pow, mul_pow, pow_add]
  field_simp
  rw [← mul_pow, one_div_mul_cancel hhn, one_pow]

theorem amp_sum (α : κ → ℂ) (β : τ → ℂ) (i : κ → ℕ) (n : τ → ℕ) : amp (Sum.elim α β) (Sum.elim i n) = amp α i * amp β n := by
  unfold amp
  rw [Fintype.prod_sum_type]
  rfl

theorem amp_mul (c β : ι → ℂ) (n : ι → ℕ) : amp (fun l => c l * β l) n = (∏ l, (starRingEnd ℂ) (c l) ^ n l) * amp β n := by
  unfold amp
  rw [← Finset.prod_mul_distrib]
  refine Finset.prod_congr rfl fun l _ => ?_
  rw [map_mul, mul_pow]
  ring

theorem amp_self (β : ι → ℂ) (n : ι → ℕ) : amp β n * (starRingEnd ℂ) (amp β n) = ((∏ l, ‖β l‖ ^ (2 * n l) / ((n l).factorial : ℝ) : ℝ) : ℂ) := by
  rw [Complex.mul_conj, Complex.normSq_eq_norm_sq, amp, norm_prod, ← Finset.prod_pow]
  congr 1
  refine Finset.prod_congr rfl fun l _ => ?_
  rw [norm_div, norm_pow, RCLike.norm_conj, Complex.norm_real, Real.norm_eq_abs, abs_of_nonneg (Real.sqrt_nonneg _), div_pow, Real.sq_sqrt (by positivity), ← pow_mul,
    mul_comm]

theorem amp_one_ne (n : ι → ℕ) : amp (fun _ => 1) n ≠ 0 := by
  unfold amp
  rw [Finset.prod_ne_zero_iff]
  intro l _
  rw [map_one, one_pow]
  exact div_ne_zero one_ne_zero (Complex.ofReal_ne_zero.mpr (Real.sqrt_pos.mpr (by positivity)).ne')

/-- matrix elements in the quadruple form -/
def quadIdx (κ τ : Type) : ((τ → ℕ) × (τ → ℕ)) × ((κ → ℕ) × (κ → ℕ)) ≃ (κ ⊕ τ → ℕ) × (κ ⊕ τ → ℕ) where
  toFun q := (Sum.elim q.2.1 q.1.1, Sum.elim q.2.2 q.1.2)
  invFun p := ((fun l => p.1 (.inr l), fun l => p.2 (.inr l)), (fun l => p.1 (.inl l), fun l => p.2 (.inl l)))
  left_inv q := rfl
  right_inv p := by
    refine Prod.ext ?_ ?_ <;> funext l <;> rcases l with l | l <;> rfl

theorem hasSum_quad {m : (κ ⊕ τ) ⊕ (κ ⊕ τ) → ℝ} {W : Matrix ((κ ⊕ τ) ⊕ (κ ⊕ τ)) ((κ ⊕ τ) ⊕ (κ ⊕ τ)) ℝ} {hbar : ℝ} {ρ : (κ ⊕ τ → ℕ) → (κ ⊕ τ → ℕ) → ℂ}
    (h : IsFock m W hbar ρ) (α : κ → ℂ) (β : τ → ℂ) :
    HasSum (fun q : ((τ → ℕ) × (τ → ℕ)) × ((κ → ℕ) × (κ → ℕ)) =>
        amp α q.2.1 * ρ (Sum.elim q.2.1 q.1.1) (Sum.elim q.2.2 q.1.2) * (starRingEnd ℂ) (amp α q.2.2) * (amp β q.1.1 * (starRingEnd ℂ) (amp β q.1.2)))
      ((Real.exp (∑ k, ‖α k‖ ^ 2) * Real.exp (∑ k, ‖β k‖ ^ 2) * hus m W hbar (Sum.elim α β) : ℝ) : ℂ) := by
  have h1 := h (Sum.elim α β)
  rw [← (quadIdx κ τ).hasSum_iff, Fintype.sum_sum_type, Real.exp_add] at h1
  refine hs_eq h1 (fun q => ?_) rfl
  show _ = amp (Sum.elim α β) (Sum.elim q.2.1 q.1.1) * ρ (Sum.elim q.2.1 q.1.1) (Sum.elim q.2.2 q.1.2) *
    (starRingEnd ℂ) (amp (Sum.elim α β) (Sum.elim q.2.2 q.1.2))
  rw [amp_sum, amp_sum, map_mul]
  ring

theorem IsPsd.comp {σ σ' : Type} {ρ : σ → σ → ℂ} (h : IsPsd ρ) (f : σ' ↪ σ) : IsPsd fun i j => ρ (f i) (f j) := by
  classical
  intro S w
  obtain ⟨r, hr, e⟩ := h (S.map f) fun i => if hi : ∃ j, f j = i then w hi.choose else 0
  refine ⟨r, hr, ?_⟩
  rw [← e, Finset.sum_map]
  refine Finset.sum_congr rfl fun i _ => ?_
  rw [Finset.sum_map]
  refine Finset.sum_congr rfl fun j _ => ?_
  have key : ∀ i, (if hi : ∃ j, f j = f i then w hi.choose else 0) = w i := by
    intro i
    rw [dif_pos ⟨i, rfl⟩]
    congr 1
    exact f.injective (Exists.choose_spec (⟨i, rfl⟩ : ∃ j, f j = f i))
  rw [key, key]

theorem IsPsd.limit {σ : Type} {ρ : σ → σ → ℂ} (h : IsPsd ρ) (w : σ → ℂ) {S : ℂ} (hS : HasSum (fun p : σ × σ => (starRingEnd ℂ) (w p.1) * ρ p.1 p.2 * w p.2) S) :
    0 ≤ S.re ∧ S.im = 0 := by
  have ht : Filter.Tendsto (fun A : Finset σ => A ×ˢ A) Filter.atTop Filter.atTop := by
    apply Filter.tendsto_atTop_finset_of_monotone
    · intro A B hAB
      exact Finset.product_subset_product hAB hAB
    · classical
      intro p
      exact ⟨{p.1, p.2}, by simp⟩
  have h1 := Filter.Tendsto.comp hS ht
  have h2 : ∀ A : Finset σ, ∃ r : ℝ, 0 ≤ r ∧ ∑ p ∈ A ×ˢ A, (starRingEnd ℂ) (w p.1) * ρ p.1 p.2 * w p.2 = r := by
    intro A
    obtain ⟨r, hr, e⟩ := h A w
    exact ⟨r, hr, by rw [Finset.sum_product, e]⟩
  constructor
  · refine ge_of_tendsto' ((Complex.continuous_re.tendsto _).comp h1) fun A => ?_
    obtain ⟨r, hr, e⟩ := h2 A
    simp only [Function.comp]
    rw [e]
    exact hr
  · refine tendsto_nhds_unique ((Complex.continuous_im.tendsto _).comp h1) ?_
    refine tendsto_const_nhds.congr fun A => ?_
    obtain ⟨r, hr, e⟩ := h2 A
    simp only [Function.comp]
    rw [e, Complex.ofReal_im]

theorem quads_continuous : Continuous (quads : (ι → ℂ) → (ι ⊕ ι → ℝ)) := by
  refine continuous_pi fun p => ?_
  rcases p with p | p
  · exact Complex.continuous_re.comp (continuous_apply p)
  · exact Complex.continuous_im.comp (continuous_apply p)

theorem hus_continuous (m : ι ⊕ ι → ℝ) (W : Matrix (ι ⊕ ι) (ι ⊕ ι) ℝ) (hbar : ℝ) : Continuous (hus m W hbar) := by
  have hq := quads_continuous (ι := ι)
  have hq' : ∀ p, Continuous fun α : ι → ℂ => quads α p := fun p => (continuous_apply p).comp hq
  unfold hus cohQ
  simp only [dotProduct, mulVec, Pi.sub_apply, Pi.smul_apply]
  fun_prop

theorem hus_nonneg (m : ι ⊕ ι → ℝ) (W : Matrix (ι ⊕ ι) (ι ⊕ ι) ℝ) (hbar : ℝ) (α : ι → ℂ) : 0 ≤ hus m W hbar α := by
  unfold hus
  positivity

theorem coherent_fibre {m : (κ ⊕ τ) ⊕ (κ ⊕ τ) → ℝ} {W : Matrix ((κ ⊕ τ) ⊕ (κ ⊕ τ)) ((κ ⊕ τ) ⊕ (κ ⊕ τ)) ℝ} {hbar : ℝ} {ρ : (κ ⊕ τ → ℕ) → (κ ⊕ τ → ℕ) → ℂ}
    (h : IsFock m W hbar ρ) (α : κ → ℂ) :
    ∃ S : (τ → ℕ) × (τ → ℕ) → ℂ, ∀ q, HasSum (fun p : (κ → ℕ) × (κ → ℕ) =>
      amp α p.1 * ρ (Sum.elim p.1 q.1) (Sum.elim p.2 q.2) * (starRingEnd ℂ) (amp α p.2)) (S q) := by
  have hfib : ∀ q : (τ → ℕ) × (τ → ℕ), Summable fun p : (κ → ℕ) × (κ → ℕ) => amp α p.1 * ρ (Sum.elim p.1 q.1) (Sum.elim p.2 q.2) * (starRingEnd ℂ) (amp α p.2) := by
    intro q
    have h1 := (hasSum_quad h α fun _ => 1).summable.prod_factor q
    have hc : amp (fun _ : τ => 1) q.1 * (starRingEnd ℂ) (amp (fun _ : τ => 1) q.2) ≠ 0 :=
      mul_ne_zero (amp_one_ne _) ((map_ne_zero _).mpr (amp_one_ne _))
    exact (summable_mul_right_iff hc).mp h1
  exact ⟨_, fun q => (hfib q).hasSum⟩

theorem coherent_total {m : (κ ⊕ τ) ⊕ (κ ⊕ τ) → ℝ} {W : Matrix ((κ ⊕ τ) ⊕ (κ ⊕ τ)) ((κ ⊕ τ) ⊕ (κ ⊕ τ)) ℝ} {hbar : ℝ} {ρ : (κ ⊕ τ → ℕ) → (κ ⊕ τ → ℕ) → ℂ}
    (h : IsFock m W hbar ρ) (α : κ → ℂ) (S : (τ → ℕ) × (τ → ℕ) → ℂ) (hS : ∀ q, HasSum (fun p : (κ → ℕ) × (κ → ℕ) =>
      amp α p.1 * ρ (Sum.elim p.1 q.1) (Sum.elim p.2 q.2) * (starRingEnd ℂ) (amp α p.2)) (S q)) (β : τ → ℂ) :
    HasSum (fun q : (τ → ℕ) × (τ → ℕ) => S q * (amp β q.1 * (starRingEnd ℂ) (amp β q.2)))
      ((Real.exp (∑ k, ‖α k‖ ^ 2) * Real.exp (∑ k, ‖β k‖ ^ 2) * hus m W hbar (Sum.elim α β) : ℝ) : ℂ) := by
  have hf : ∀ q : (τ → ℕ) × (τ → ℕ), HasSum (fun p : (κ → ℕ) × (κ → ℕ) =>
      amp α p.1 * ρ (Sum.elim p.1 q.1) (Sum.elim p.2 q.2) * (starRingEnd ℂ) (amp α p.2) * (amp β q.1 * (starRingEnd ℂ) (amp β q.2)))
      (S q * (amp β q.1 * (starRingEnd ℂ) (amp β q.2))) := fun q => (hS q).mul_right _
  exact HasSum.prod_fiberwise (hasSum_quad h α β) hf

theorem coherent_diag {ρ : (κ ⊕ τ → ℕ) → (κ ⊕ τ → ℕ) → ℂ}
    (hpsd : IsPsd ρ) (α : κ → ℂ) (S : (τ → ℕ) × (τ → ℕ) → ℂ) (hS : ∀ q, HasSum (fun p : (κ → ℕ) × (κ → ℕ) =>
      amp α p.1 * ρ (Sum.elim p.1 q.1) (Sum.elim p.2 q.2) * (starRingEnd ℂ) (amp α p.2)) (S q)) (n : τ → ℕ) :
    ∃ r : ℝ, 0 ≤ r ∧ S (n, n) = r := by
  let f : (κ → ℕ) ↪ (κ ⊕ τ → ℕ) := ⟨fun i => Sum.elim i n, fun i j hij => by
    funext k
    exact congrFun hij (Sum.inl k)⟩
  have := (hpsd.comp f).limit (fun i => (starRingEnd ℂ) (amp α i)) (S := S (n, n)) (by
    simp only [Complex.conj_conj]
    exact hS (n, n))
  exact ⟨_, this.1, Complex.ext (by simp) (by simp [this.2])⟩

/-- averaging over the phases of the traced-out modes -/
theorem phase_average (S : (τ → ℕ) × (τ → ℕ) → ℂ) (s : (τ → ℕ) → ℝ) (hs : ∀ n, S (n, n) = s n) (g : (τ → ℂ) → ℝ)
    (hg : ∀ β : τ → ℂ, HasSum (fun q : (τ → ℕ) × (τ → ℕ) => S q * (amp β q.1 * (starRingEnd ℂ) (amp β q.2))) ((g β : ℝ) : ℂ)) (β : τ → ℂ) :
    HasSum (fun n : τ → ℕ => s n * ∏ l, ‖β l‖ ^ (2 * n l) / ((n l).factorial : ℝ)) (∫ x, g (fun l => ph x l * β l) ∂(tor τ)) := by
  have ha : Summable fun q : (τ → ℕ) × (τ → ℕ) => ‖S q * (amp β q.1 * (starRingEnd ℂ) (amp β q.2))‖ := (hg β).summable.norm
  have h1 := torus_avg (fun q : (τ → ℕ) × (τ → ℕ) => S q * (amp β q.1 * (starRingEnd ℂ) (amp β q.2))) ha (fun x => ((g fun l => ph x l * β l : ℝ) : ℂ)) (fun x => by
    refine hs_eq (hg fun l => ph x l * β l) (fun q => ?_) rfl
    rw [amp_mul, amp_mul, map_mul, map_prod]
    simp only [map_pow, Complex.conj_conj]
    ring)
  rw [integral_complex_ofReal] at h1
  rw [← Complex.hasSum_ofReal]
  refine hs_eq h1 (fun n => ?_) rfl
  rw [amp_self, hs]
  push_cast
  rfl

theorem coherent_hasSum (m : (κ ⊕ τ) ⊕ (κ ⊕ τ) → ℝ) (W : Matrix ((κ ⊕ τ) ⊕ (κ ⊕ τ)) ((κ ⊕ τ) ⊕ (κ ⊕ τ)) ℝ) (hbar : ℝ)
    (hW : W.PosDef) (hh : 0 < hbar) (α : κ → ℂ) (s : (τ → ℕ) → ℝ) (hs : ∀ n, 0 ≤ s n)
    (hrad : ∫⁻ β : τ → ℂ, ENNReal.ofReal (Real.exp (∑ k, ‖α k‖ ^ 2) * Real.exp (∑ k, ‖β k‖ ^ 2) * hus m W hbar (Sum.elim α β) * Real.exp (-∑ l, ‖β l‖ ^ 2)) =
      ∑' n, ENNReal.ofReal (s n * Real.pi ^ Fintype.card τ)) :
    HasSum s (Real.exp (∑ k, ‖α k‖ ^ 2) * hus (resV m Sum.inl) (resM W Sum.inl) hbar α) := by
  have e1 : ∀ β : τ → ℂ, ENNReal.ofReal (Real.exp (∑ k, ‖α k‖ ^ 2) * Real.exp (∑ k, ‖β k‖ ^ 2) * hus m W hbar (Sum.elim α β) * Real.exp (-∑ l, ‖β l‖ ^ 2)) =
      ENNReal.ofReal (Real.exp (∑ k, ‖α k‖ ^ 2)) * ENNReal.ofReal (hus m W hbar (Sum.elim α β)) := by
    intro β
    rw [← ENNReal.ofReal_mul (Real.exp_pos _).le]
    congr 1
    have : Real.exp (∑ k, ‖β k‖ ^ 2) * Real.exp (-∑ l, ‖β l‖ ^ 2) = 1 := by rw [← Real.exp_add, add_neg_cancel, Real.exp_zero]
    linear_combination (Real.exp (∑ k, ‖α k‖ ^ 2) * hus m W hbar (Sum.elim α β)) * this
  rw [lintegral_congr e1, lintegral_const_mul' _ _ ENNReal.ofReal_ne_top, hus_marginal m W hW hbar hh α, ← ENNReal.ofReal_mul (Real.exp_pos _).le] at hrad
  have hne : ∑' n, ENNReal.ofReal (s n * Real.pi ^ Fintype.card τ) ≠ ⊤ := by rw [← hrad]; exact ENNReal.ofReal_ne_top
  have h1 := ENNReal.hasSum_toReal hne
  rw [← ENNReal.tsum_toReal_eq (fun n => ENNReal.ofReal_ne_top), ← hrad,
    ENNReal.toReal_ofReal (mul_nonneg (Real.exp_pos _).le (mul_nonneg (by positivity) (hus_nonneg _ _ _ _)))] at h1
  have hpi : (Real.pi ^ Fintype.card τ : ℝ) ≠ 0 := pow_ne_zero _ Real.pi_ne_zero
  have h2 := h1.mul_right (Real.pi ^ Fintype.card τ)⁻¹
  refine hs_eq h2 (fun n => ?_) ?_
  · rw [ENNReal.toReal_ofReal (mul_nonneg (hs n) (by positivity)), mul_assoc, mul_inv_cancel₀ hpi, mul_one]
  · field_simp

theorem coherent_cont (m : (κ ⊕ τ) ⊕ (κ ⊕ τ) → ℝ) (W : Matrix ((κ ⊕ τ) ⊕ (κ ⊕ τ)) ((κ ⊕ τ) ⊕ (κ ⊕ τ)) ℝ) (hbar : ℝ) (α : κ → ℂ) :
    Continuous fun β : τ → ℂ => Real.exp (∑ k, ‖α k‖ ^ 2) * Real.exp (∑ k, ‖β k‖ ^ 2) * hus m W hbar (Sum.elim α β) := by
  have h1 : Continuous fun β : τ → ℂ => (Sum.elim α β : κ ⊕ τ → ℂ) := by
    refine continuous_pi fun p => ?_
    rcases p with p | p
    · exact continuous_const
    · exact continuous_apply p
  have h2 := (hus_continuous m W hbar).comp h1
  exact (continuous_const.mul (Real.continuous_exp.comp (by fun_prop))).mul h2

/-- the trace over the modes `τ`, between coherent states of the modes `κ` -/
theorem coherent_trace {m : (κ ⊕ τ) ⊕ (κ ⊕ τ) → ℝ} {W : Matrix ((κ ⊕ τ) ⊕ (κ ⊕ τ)) ((κ ⊕ τ) ⊕ (κ ⊕ τ)) ℝ} {hbar : ℝ} {ρ : (κ ⊕ τ → ℕ) → (κ ⊕ τ → ℕ) → ℂ}
    (h : IsFock m W hbar ρ) (hpsd : IsPsd ρ) (hW : W.PosDef) (hh : 0 < hbar) (α : κ → ℂ) :
    ∃ s : (τ → ℕ) → ℝ, (∀ n, 0 ≤ s n) ∧
      (∀ n, HasSum (fun p : (κ → ℕ) × (κ → ℕ) => amp α p.1 * ρ (Sum.elim p.1 n) (Sum.elim p.2 n) * (starRingEnd ℂ) (amp α p.2)) ((s n : ℝ) : ℂ)) ∧
      HasSum s (Real.exp (∑ k, ‖α k‖ ^ 2) * hus (resV m Sum.inl) (resM W Sum.inl) hbar α) := by
  obtain ⟨S, hS⟩ := coherent_fibre h α
  choose s hs0 hs using coherent_diag hpsd α S hS
  refine ⟨s, hs0, fun n => ?_, ?_⟩
  · rw [← hs]
    exact hS (n, n)
  · exact coherent_hasSum m W hbar hW hh α s hs0 (radial _ (coherent_cont m W hbar α) (fun β => mul_nonneg (by positivity) (hus_nonneg _ _ _ _)) s hs0
      fun β => phase_average S s hs _ (coherent_total h α S hS) β)

end

end Verif.Lemmas.FPar
