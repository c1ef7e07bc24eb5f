/-
The partial trace of a Gaussian state in the Fock basis is the Gaussian state with the restricted means and covariance matrix; its trace is one.
-/
import Verif.Lemmas.FockPartial

namespace Verif.Lemmas.FPar
open Matrix

variable {ι κ τ : Type} [Fintype ι] [DecidableEq ι] [Fintype κ] [DecidableEq κ] [Fintype τ] [DecidableEq τ]

theorem amp_equiv (e : κ ≃ ι) (α : κ → ℂ) (i : κ → ℕ) : amp (α ∘ e.symm) (i ∘ e.symm) = amp α i := by
  unfold amp
  rw [← Equiv.prod_comp e]
  simp

theorem hus_equiv (m : ι ⊕ ι → ℝ) (W : Matrix (ι ⊕ ι) (ι ⊕ ι) ℝ) (hbar : ℝ) (e : κ ≃ ι) (α : κ → ℂ) :
    hus (resV m e) (resM W e) hbar α = hus m W hbar (α ∘ e.symm) := by
  have hE : ∀ p, Sum.map e e p = (Equiv.sumCongr e e) p := fun p => rfl
  have h1 : cohQ hbar α - resV m e = (cohQ hbar (α ∘ e.symm) - m) ∘ (Equiv.sumCongr e e) := by
    funext p
    rcases p with p | p <;> simp [cohQ, resV, Verif.Lemmas.GInt.quads]
  have h2 : resM W e = W.submatrix (Equiv.sumCongr e e) (Equiv.sumCongr e e) := rfl
  unfold hus
  rw [h1, h2, inv_submatrix_equiv, submatrix_mulVec_equiv, Function.comp_assoc, Equiv.self_comp_symm, Function.comp_id, comp_equiv_dotProduct_comp_equiv,
    show (1 / hbar) • W.submatrix (Equiv.sumCongr e e) (Equiv.sumCongr e e) = ((1 / hbar) • W).submatrix (Equiv.sumCongr e e) (Equiv.sumCongr e e) from rfl,
    det_submatrix_equiv_self]

theorem IsFock.relabel {m : ι ⊕ ι → ℝ} {W : Matrix (ι ⊕ ι) (ι ⊕ ι) ℝ} {hbar : ℝ} {ρ : (ι → ℕ) → (ι → ℕ) → ℂ} (h : IsFock m W hbar ρ) (e : κ ≃ ι) :
    IsFock (resV m e) (resM W e) hbar fun i j => ρ (i ∘ e.symm) (j ∘ e.symm) := by
  intro α
  have h1 := h (α ∘ e.symm)
  rw [← (Equiv.prodCongr (Equiv.arrowCongr e (Equiv.refl ℕ)) (Equiv.arrowCongr e (Equiv.refl ℕ))).hasSum_iff] at h1
  refine hs_eq h1 (fun p => ?_) ?_
  · show _ = amp (α ∘ e.symm) (p.1 ∘ e.symm) * ρ (p.1 ∘ e.symm) (p.2 ∘ e.symm) * (starRingEnd ℂ) (amp (α ∘ e.symm) (p.2 ∘ e.symm))
    rw [amp_equiv, amp_equiv]
  · rw [hus_equiv, ← Equiv.sum_comp e]
    simp

theorem IsPsd.herm {σ : Type} {ρ : σ → σ → ℂ} (h : IsPsd ρ) (i j : σ) : ρ j i = (starRingEnd ℂ) (ρ i j) := by
  classical
  have hd : ∀ i, (ρ i i).im = 0 := by
    intro i
    obtain ⟨r, -, e⟩ := h {i} fun _ => 1
    simp at e
    rw [e, Complex.ofReal_im]
  by_cases hij : i = j
  · subst hij
    exact Complex.ext (by simp) (by simp [hd])
  obtain ⟨r, -, e⟩ := h {i, j} fun _ => 1
  obtain ⟨r', -, e'⟩ := h {i, j} fun k => if k = i then 1 else Complex.I
  simp only [Finset.sum_pair hij, map_one, one_mul, mul_one] at e
  simp only [Finset.sum_pair hij, if_true, if_neg (Ne.symm hij), map_one, one_mul, mul_one, Complex.conj_I] at e'
  have e1 := congrArg Complex.im e
  have e2 := congrArg Complex.im e'
  simp [hd] at e1 e2
  refine Complex.ext ?_ ?_
  · simp; linarith
  · simp; linarith

theorem IsPsd.diag {σ : Type} {ρ : σ → σ → ℂ} (h : IsPsd ρ) (i : σ) : 0 ≤ (ρ i i).re ∧ ρ i i = ((ρ i i).re : ℝ) := by
  obtain ⟨r, hr, e⟩ := h {i} fun _ => 1
  simp at e
  rw [e, Complex.ofReal_re]
  exact ⟨hr, rfl⟩

theorem IsPsd.bound {σ : Type} {ρ : σ → σ → ℂ} (h : IsPsd ρ) (i j : σ) : ‖ρ i j‖ ≤ (ρ i i).re + (ρ j j).re := by
  classical
  by_cases h0 : ρ i j = 0
  · rw [h0, norm_zero]
    exact add_nonneg (h.diag i).1 (h.diag j).1
  by_cases hij : i = j
  · subst hij
    have := h.diag i
    rw [this.2, Complex.norm_real, Complex.ofReal_re, Real.norm_eq_abs, abs_of_nonneg this.1]
    linarith [this.1]
  have hn : (‖ρ i j‖ : ℂ) ≠ 0 := by simpa using h0
  obtain ⟨r, hr, e⟩ := h {i, j} fun k => if k = i then 1 else -((starRingEnd ℂ) (ρ i j)) / ‖ρ i j‖
  simp only [Finset.sum_pair hij, if_true, if_neg (Ne.symm hij), map_one, one_mul, mul_one, map_div₀, map_neg, Complex.conj_conj, Complex.conj_ofReal] at e
  have hz : ρ i j * (starRingEnd ℂ) (ρ i j) = (‖ρ i j‖ : ℂ) ^ 2 := by
    rw [Complex.mul_conj, Complex.normSq_eq_norm_sq]
    push_cast
    rfl
  have e1 : ρ i j * (-((starRingEnd ℂ) (ρ i j)) / ‖ρ i j‖) = -(‖ρ i j‖ : ℂ) := by
    field_simp
    linear_combination -hz
  have e2 : -ρ i j / ‖ρ i j‖ * ρ j i = -(‖ρ i j‖ : ℂ) := by
    rw [h.herm i j]
    field_simp
    linear_combination -hz
  have e3 : -ρ i j / ‖ρ i j‖ * ρ j j * (-((starRingEnd ℂ) (ρ i j)) / ‖ρ i j‖) = ρ j j := by
    field_simp
    linear_combination ρ j j * hz
  rw [e1, e2, e3] at e
  have := congrArg Complex.re e
  simp at this
  linarith [(h.diag i).1, (h.diag j).1]

theorem summable_sqrt_fact (x : ℝ) (hx : 0 ≤ x) : Summable fun n : ℕ => x ^ n / Real.sqrt n.factorial := by
  refine Summable.of_nonneg_of_le (fun n => by positivity) (fun n => ?_)
    ((Real.summable_pow_div_factorial (4 * x ^ 2)).add (summable_geometric_of_lt_one (r := (1 / 4 : ℝ)) (by norm_num) (by norm_num)))
  have h1 : (4 * x ^ 2) ^ n / n.factorial = ((2 * x) ^ n / Real.sqrt n.factorial) ^ 2 := by
    rw [div_pow, Real.sq_sqrt (by positivity), ← pow_mul, mul_comm n 2, pow_mul]
    ring
  have h2 : (1 / 4 : ℝ) ^ n = ((1 / 2 : ℝ) ^ n) ^ 2 := by
    rw [← pow_mul, mul_comm n 2, pow_mul]
    norm_num
  have h3 : x ^ n / Real.sqrt n.factorial = ((2 * x) ^ n / Real.sqrt n.factorial) * (1 / 2 : ℝ) ^ n := by
    rw [div_mul_eq_mul_div, ← mul_pow]
    congr 2
    ring
  rw [h1, h2, h3]
  have ha : 0 ≤ (2 * x) ^ n / Real.sqrt n.factorial := by positivity
  have hb : 0 ≤ (1 / 2 : ℝ) ^ n := by positivity
  generalize (2 * x) ^ n / Real.sqrt n.factorial = a at *
  generalize (1 / 2 : ℝ) ^ n = b at *
  nlinarith [sq_nonneg (a - b), mul_nonneg ha hb]

theorem summable_pi {f : ι → ℕ → ℝ} (h0 : ∀ k n, 0 ≤ f k n) (h : ∀ k, Summable (f k)) : Summable fun n : ι → ℕ => ∏ k, f k (n k) := by
  refine summable_of_sum_le (c := ∏ k, ∑' n, f k n) (fun n => Finset.prod_nonneg fun k _ => h0 k _) fun S => ?_
  have hsub : S ⊆ Fintype.piFinset fun k => S.image fun n => n k := by
    intro n hn
    rw [Fintype.mem_piFinset]
    exact fun k => Finset.mem_image_of_mem _ hn
  calc ∑ n ∈ S, ∏ k, f k (n k) ≤ ∑ n ∈ Fintype.piFinset fun k => S.image fun n => n k, ∏ k, f k (n k) :=
        Finset.sum_le_sum_of_subset_of_nonneg hsub fun n _ _ => Finset.prod_nonneg fun k _ => h0 k _
    _ = ∏ k, ∑ n ∈ S.image fun n => n k, f k n := (Finset.prod_univ_sum _ _).symm
    _ ≤ ∏ k, ∑' n, f k n := Finset.prod_le_prod (fun k _ => Finset.sum_nonneg fun n _ => h0 k n) fun k _ => (h k).sum_le_tsum _ fun n _ => h0 k n

theorem amp_summable (α : ι → ℂ) : Summable fun i : ι → ℕ => ‖amp α i‖ := by
  have := summable_pi (f := fun (k : ι) n => ‖α k‖ ^ n / Real.sqrt n.factorial) (fun k n => by positivity) fun k => summable_sqrt_fact _ (norm_nonneg _)
  refine this.congr fun i => ?_
  unfold amp
  rw [norm_prod]
  refine Finset.prod_congr rfl fun k _ => ?_
  rw [norm_div, norm_pow, RCLike.norm_conj, Complex.norm_real, Real.norm_eq_abs, abs_of_nonneg (Real.sqrt_nonneg _)]

/-- the trace is one -/
theorem IsFock.trace {m : ι ⊕ ι → ℝ} {W : Matrix (ι ⊕ ι) (ι ⊕ ι) ℝ} {hbar : ℝ} {ρ : (ι → ℕ) → (ι → ℕ) → ℂ}
    (h : IsFock m W hbar ρ) (hpsd : IsPsd ρ) (hW : W.PosDef) (hh : 0 < hbar) : HasSum (fun n => (ρ n n).re) 1 := by
  let e : Empty ⊕ ι ≃ ι := Equiv.emptySum Empty ι
  have hE : ∀ (i : Empty → ℕ) (n : ι → ℕ), (Sum.elim i n) ∘ e.symm = n := by
    intro i n
    funext k
    rfl
  have hW' : (resM W e).PosDef := hW.submatrix (Sum.map_injective.mpr ⟨e.injective, e.injective⟩)
  have hp' : IsPsd fun i j : Empty ⊕ ι → ℕ => ρ (i ∘ e.symm) (j ∘ e.symm) :=
    hpsd.comp ⟨fun i : Empty ⊕ ι → ℕ => i ∘ e.symm, e.symm.surjective.injective_comp_right⟩
  obtain ⟨s, hs0, hs1, hs2⟩ := coherent_trace (h.relabel e) hp' hW' hh fun _ => 0
  refine hs_eq hs2 (fun n => ?_) ?_
  · haveI : Unique ((Empty → ℕ) × (Empty → ℕ)) := ⟨⟨(Empty.elim, Empty.elim)⟩, fun p => Prod.ext (funext fun k => k.elim) (funext fun k => k.elim)⟩
    have h1 := hasSum_unique (fun p : (Empty → ℕ) × (Empty → ℕ) => amp (fun _ => 0) p.1 * ρ ((Sum.elim p.1 n) ∘ e.symm) ((Sum.elim p.2 n) ∘ e.symm) *
      (starRingEnd ℂ) (amp (fun _ => 0) p.2))
    have h2 := h1.unique (hs1 n)
    simp only [hE] at h2
    simp [amp] at h2
    rw [h2, Complex.ofReal_re]
  · simp [hus, dotProduct]

/-- the partial trace -/
theorem IsFock.partialTrace {m : (κ ⊕ τ) ⊕ (κ ⊕ τ) → ℝ} {W : Matrix ((κ ⊕ τ) ⊕ (κ ⊕ τ)) ((κ ⊕ τ) ⊕ (κ ⊕ τ)) ℝ} {hbar : ℝ} {ρ : (κ ⊕ τ → ℕ) → (κ ⊕ τ → ℕ) → ℂ}
    (h : IsFock m W hbar ρ) (hpsd : IsPsd ρ) (hW : W.PosDef) (hh : 0 < hbar) :
    ∃ ρ' : (κ → ℕ) → (κ → ℕ) → ℂ, (∀ i j, HasSum (fun n : τ → ℕ => ρ (Sum.elim i n) (Sum.elim j n)) (ρ' i j)) ∧
      IsFock (resV m Sum.inl) (resM W Sum.inl) hbar ρ' := by
  have htr := (h.trace hpsd hW hh).summable
  let E : (κ → ℕ) × (τ → ℕ) ≃ (κ ⊕ τ → ℕ) := (Equiv.sumArrowEquivProdArrow κ τ ℕ).symm
  have hd : Summable fun q : (κ → ℕ) × (τ → ℕ) => (ρ (Sum.elim q.1 q.2) (Sum.elim q.1 q.2)).re := by
    have := E.summable_iff.mpr htr
    exact this
  have hdi : ∀ i, Summable fun n : τ → ℕ => (ρ (Sum.elim i n) (Sum.elim i n)).re := fun i => hd.prod_factor i
  have hn : ∀ i j, Summable fun n : τ → ℕ => ρ (Sum.elim i n) (Sum.elim j n) := fun i j =>
    Summable.of_norm_bounded ((hdi i).add (hdi j)) fun n => hpsd.bound _ _
  refine ⟨fun i j => ∑' n : τ → ℕ, ρ (Sum.elim i n) (Sum.elim j n), fun i j => (hn i j).hasSum, fun α => ?_⟩
  have hA := amp_summable α
  have hAd : Summable fun q : (κ → ℕ) × (τ → ℕ) => ‖amp α q.1‖ * (ρ (Sum.elim q.1 q.2) (Sum.elim q.1 q.2)).re := by
    refine Summable.of_nonneg_of_le (fun q => mul_nonneg (norm_nonneg _) (hpsd.diag _).1) (fun q => ?_) (hd.mul_left (∑' i, ‖amp α i‖))
    exact mul_le_mul_of_nonneg_right (hA.le_tsum _ fun _ _ => norm_nonneg _) (hpsd.diag _).1
  have hprod := hAd.mul_of_nonneg hA (fun q => mul_nonneg (norm_nonneg _) (hpsd.diag _).1) (fun _ => norm_nonneg _)
  let E1 : ((κ → ℕ) × (κ → ℕ)) × (τ → ℕ) ≃ ((κ → ℕ) × (τ → ℕ)) × (κ → ℕ) :=
    ⟨fun q => ((q.1.1, q.2), q.1.2), fun q => ((q.1.1, q.2), q.1.2), fun _ => rfl, fun _ => rfl⟩
  let E2 : ((κ → ℕ) × (κ → ℕ)) × (τ → ℕ) ≃ ((κ → ℕ) × (τ → ℕ)) × (κ → ℕ) :=
    ⟨fun q => ((q.1.2, q.2), q.1.1), fun q => ((q.2, q.1.1), q.1.2), fun _ => rfl, fun _ => rfl⟩
  have hF : Summable fun q : ((κ → ℕ) × (κ → ℕ)) × (τ → ℕ) =>
      amp α q.1.1 * ρ (Sum.elim q.1.1 q.2) (Sum.elim q.1.2 q.2) * (starRingEnd ℂ) (amp α q.1.2) := by
    refine Summable.of_norm_bounded ((E1.summable_iff.mpr hprod).add (E2.summable_iff.mpr hprod)) fun q => ?_
    show _ ≤ ‖amp α q.1.1‖ * (ρ (Sum.elim q.1.1 q.2) (Sum.elim q.1.1 q.2)).re * ‖amp α q.1.2‖ +
      ‖amp α q.1.2‖ * (ρ (Sum.elim q.1.2 q.2) (Sum.elim q.1.2 q.2)).re * ‖amp α q.1.1‖
    rw [norm_mul, norm_mul, RCLike.norm_conj]
    have := mul_le_mul_of_nonneg_left (hpsd.bound (Sum.elim q.1.1 q.2) (Sum.elim q.1.2 q.2)) (mul_nonneg (norm_nonneg (amp α q.1.1)) (norm_nonneg (amp α q.1.2)))
    linarith
  obtain ⟨s, hs0, hs1, hs2⟩ := coherent_trace h hpsd hW hh α
  have hT := hF.hasSum
  have hswap := (Equiv.prodComm (τ → ℕ) ((κ → ℕ) × (κ → ℕ))).hasSum_iff.mpr hT
  have hc1 : HasSum (fun n => ((s n : ℝ) : ℂ)) (∑' q : ((κ → ℕ) × (κ → ℕ)) × (τ → ℕ),
      amp α q.1.1 * ρ (Sum.elim q.1.1 q.2) (Sum.elim q.1.2 q.2) * (starRingEnd ℂ) (amp α q.1.2)) := HasSum.prod_fiberwise hswap hs1
  have hval := hc1.unique (Complex.hasSum_ofReal.mpr hs2)
  rw [hval] at hT
  have hfin : ∀ p : (κ → ℕ) × (κ → ℕ), HasSum (fun n : τ → ℕ => amp α p.1 * ρ (Sum.elim p.1 n) (Sum.elim p.2 n) * (starRingEnd ℂ) (amp α p.2))
      (amp α p.1 * (∑' n : τ → ℕ, ρ (Sum.elim p.1 n) (Sum.elim p.2 n)) * (starRingEnd ℂ) (amp α p.2)) :=
    fun p => ((hn p.1 p.2).hasSum.mul_left _).mul_right _
  exact HasSum.prod_fiberwise hT hfin

end Verif.Lemmas.FPar
