/-
C56: `mean_clicks` and `variance_clicks` are the mean and variance of the number of clicks.
-/
import Verif.Props.PhotonNumber
import Verif.Spec.Clicks
import Verif.Lemmas.Householder
import Mathlib.LinearAlgebra.Basis.VectorSpace

set_option linter.unusedSectionVars false
set_option linter.unusedSimpArgs false

namespace Verif.Props
open Verif.Model Verif.Model.Symp Verif.Model.Conv Verif.Model.Means Verif.Spec Verif.Lemmas Verif.Lemmas.Symp Matrix

/-- the block of the `Q` matrix of the modes in `S` -/
noncomputable def Qsub (N : ℕ) (cov : ℕ → ℕ → ℝ) (hbar : ℝ) (S : Finset ℕ) : Matrix (S ⊕ S) (S ⊕ S) ℂ :=
  Matrix.of fun p q => Qmat N cov hbar (modeQuad N S p) (modeQuad N S q)

/-- the block of `(V + ħ/2)/ħ` of the modes in `S` -/
noncomputable def Wsub (N : ℕ) (cov : ℕ → ℕ → ℝ) (hbar : ℝ) (S : Finset ℕ) : Matrix (S ⊕ S) (S ⊕ S) ℝ :=
  Matrix.of fun p q => (cov (modeQuad N S p) (modeQuad N S q) + if p = q then hbar / 2 else 0) / hbar

theorem Qmat_xx_mk (N : ℕ) (cov : ℕ → ℕ → ℝ) (hbar : ℝ) (i j : ℕ) (hi : i < N) (hj : j < N) :
    Qmat N cov hbar i j = ⟨(cov i j + cov (N + i) (N + j)) / (2 * hbar) + (if i = j then 1 / 2 else 0), (cov i (N + j) - cov j (N + i)) / (2 * hbar)⟩ := by
  have e1 : (eye i j : ℂ).re = if i = j then 1 else 0 := by unfold eye; split_ifs <;> simp
  have e2 : (eye i j : ℂ).im = 0 := by unfold eye; split_ifs <;> simp
  rw [Qmat_xx N cov hbar i j hi hj]
  apply Complex.ext
  · simp [e1, e2]; split_ifs <;> ring
  · simp [e1, e2]; ring

theorem Qmat_px_mk (N : ℕ) (cov : ℕ → ℕ → ℝ) (hbar : ℝ) (i j : ℕ) (hi : i < N) (hj : j < N) :
    Qmat N cov hbar (N + i) j = ⟨(cov i j - cov (N + i) (N + j)) / (2 * hbar), (cov i (N + j) + cov j (N + i)) / (2 * hbar)⟩ := by
  rw [Qmat_px N cov hbar i j hi hj]
  apply Complex.ext
  · simp; ring
  · simp; ring

/-- quadratures to amplitudes: `x - i p` and `x + i p` -/
noncomputable def ampMat (S : Finset ℕ) : Matrix (S ⊕ S) (S ⊕ S) ℂ := fromBlocks 1 (-(Complex.I • 1)) 1 (Complex.I • 1)

theorem Qsub_mul_amp (N : ℕ) (cov : ℕ → ℕ → ℝ) (hsym : ∀ i < 2 * N, ∀ j < 2 * N, cov i j = cov j i) (hbar : ℝ) (hh : 0 < hbar) (S : Finset ℕ)
    (hS : S ⊆ Finset.range N) : Qsub N cov hbar S * ampMat S = ampMat S * (Wsub N cov hbar S).map (fun x : ℝ => (x : ℂ)) := by
  have hh' := hh.ne'
  have hQ : Qsub N cov hbar S = fromBlocks (of fun i j : S => Qmat N cov hbar i j) (of fun i j : S => Qmat N cov hbar i (N + j))
      (of fun i j : S => Qmat N cov hbar (N + i) j) (of fun i j : S => Qmat N cov hbar (N + i) (N + j)) := by
    ext p q; rcases p with p | p <;> rcases q with q | q <;> rfl
  have hW : (Wsub N cov hbar S).map (fun x : ℝ => (x : ℂ)) = fromBlocks (of fun i j : S => (((cov i j + if i = j then hbar / 2 else 0) / hbar : ℝ) : ℂ))
      (of fun i j : S => ((cov i (N + j) / hbar : ℝ) : ℂ)) (of fun i j : S => ((cov (N + i) j / hbar : ℝ) : ℂ))
      (of fun i j : S => (((cov (N + i) (N + j) + if i = j then hbar / 2 else 0) / hbar : ℝ) : ℂ)) := by
    ext p q; rcases p with p | p <;> rcases q with q | q <;> simp [Wsub, modeQuad, Matrix.map_apply]
  rw [hQ, hW]
  simp only [ampMat]
  rw [fromBlocks_multiply, fromBlocks_multiply]
  have hconjE : ∀ i j : ℕ, (starRingEnd ℂ) (eye i j : ℂ) = eye i j := by intro i j; unfold eye; split_ifs <;> simp
  ext p q
  rcases p with ⟨p, hp⟩ | ⟨p, hp⟩ <;> rcases q with ⟨q, hq⟩ | ⟨q, hq⟩ <;>
    simp only [fromBlocks_apply₁₁, fromBlocks_apply₁₂, fromBlocks_apply₂₁, fromBlocks_apply₂₂, Matrix.add_apply, Matrix.smul_apply, Matrix.one_mul,
      Matrix.mul_one, Matrix.neg_apply, Matrix.smul_mul, Matrix.mul_smul, Matrix.neg_mul, Matrix.mul_neg, of_apply, smul_eq_mul, Subtype.mk.injEq]
  all_goals
    have hp' : p < N := Finset.mem_range.mp (hS hp)
    have hq' : q < N := Finset.mem_range.mp (hS hq)
    have hc : cov q (N + p) = cov (N + p) q := hsym _ (by omega) _ (by omega)
    simp only [Qmat_xp N cov hbar p q hp' hq', Qmat_px_mk N cov hbar p q hp' hq', Qmat_pp N cov hbar p q hp' hq', Qmat_xx_mk N cov hbar p q hp' hq', hc]
    apply Complex.ext
  all_goals
    simp only [Complex.add_re, Complex.add_im, Complex.neg_re, Complex.neg_im, Complex.mul_re, Complex.mul_im, Complex.I_re, Complex.I_im, Complex.conj_re,
      Complex.conj_im, Complex.ofReal_re, Complex.ofReal_im]
    (try split_ifs) <;> field_simp <;> ring

theorem Qsub_det (N : ℕ) (cov : ℕ → ℕ → ℝ) (hsym : ∀ i < 2 * N, ∀ j < 2 * N, cov i j = cov j i) (hbar : ℝ) (hh : 0 < hbar) (S : Finset ℕ)
    (hS : S ⊆ Finset.range N) : (Qsub N cov hbar S).det = ((Wsub N cov hbar S).det : ℝ) := by
  let U : Matrix (S ⊕ S) (S ⊕ S) ℂ := ampMat S
  let U' : Matrix (S ⊕ S) (S ⊕ S) ℂ := fromBlocks 1 1 (Complex.I • 1) (-(Complex.I • 1))
  have hUU : U * U' = (2 : ℂ) • 1 := by
    simp only [U, U', ampMat]
    rw [fromBlocks_multiply]
    ext p q
    rcases p with p | p <;> rcases q with q | q <;>
      simp only [fromBlocks_apply₁₁, fromBlocks_apply₁₂, fromBlocks_apply₂₁, fromBlocks_apply₂₂, Matrix.add_apply, Matrix.smul_apply, Matrix.one_mul,
        Matrix.mul_one, Matrix.neg_apply, Matrix.smul_mul, Matrix.mul_smul, Matrix.neg_mul, Matrix.mul_neg, smul_smul, Complex.I_mul_I, neg_smul,
        one_smul, neg_neg, smul_eq_mul, Matrix.one_apply, Sum.inl.injEq, Sum.inr.injEq, reduceCtorEq, if_false] <;> split_ifs <;> norm_num
  have hdet : U.det ≠ 0 := by
    intro h
    have := congrArg Matrix.det hUU
    rw [Matrix.det_mul, h, zero_mul, Matrix.det_smul, Matrix.det_one, mul_one] at this
    exact (pow_ne_zero _ (two_ne_zero)) this.symm
  have hQU := Qsub_mul_amp N cov hsym hbar hh S hS
  have := congrArg Matrix.det hQU
  rw [Matrix.det_mul, Matrix.det_mul, mul_comm] at this
  have h2 := mul_left_cancel₀ hdet this
  rw [h2]
  exact (RingHom.map_det Complex.ofRealHom (Wsub N cov hbar S)).symm

theorem vacProb_Qsub (N : ℕ) (cov : ℕ → ℕ → ℝ) (hsym : ∀ i < 2 * N, ∀ j < 2 * N, cov i j = cov j i) (hbar : ℝ) (hh : 0 < hbar) (S : Finset ℕ)
    (hS : S ⊆ Finset.range N) : vacProb N cov hbar S = 1 / Real.sqrt (Qsub N cov hbar S).det.re := by
  rw [Qsub_det N cov hsym hbar hh S hS, Complex.ofReal_re]; rfl

theorem det_reduced (N : ℕ) (cov : ℕ → ℕ → ℝ) (hbar : ℝ) (ms : List ℕ) (hn : ms.Nodup) (r : GState ℂ)
    (hR : IsReduction N ({ len := 2 * N, mu := fun _ => 0, cov := Qmat N cov hbar } : GState ℂ) ms r) :
    (toMatrix r.len r.len r.cov).det = (Qsub N cov hbar ms.toFinset).det := by
  rw [hR.len, ← phase_det]
  let e : Fin ms.length ≃ ms.toFinset := (hn.getEquiv ms).trans (Equiv.subtypeEquivRight fun x => List.mem_toFinset.symm)
  have he : ∀ i : Fin ms.length, ((e i : ms.toFinset) : ℕ) = ms.getD i 0 := by
    intro i
    rw [List.getD_eq_getElem _ _ i.2]; rfl
  have : phase ms.length ms.length r.cov = (Qsub N cov hbar ms.toFinset).submatrix (Equiv.sumCongr e e) (Equiv.sumCongr e e) := by
    ext p q
    rcases p with i | i <;> rcases q with j | j
    · have := hR.xx i i.2 j j.2; simpa [phase, quad, Qsub, modeQuad, he] using this
    · have := hR.xp i i.2 j j.2; simpa [phase, quad, Qsub, modeQuad, he] using this
    · have := hR.px i i.2 j j.2; simpa [phase, quad, Qsub, modeQuad, he] using this
    · have := hR.pp i i.2 j j.2; simpa [phase, quad, Qsub, modeQuad, he] using this
  rw [this, det_submatrix_equiv_self]

theorem vacDet_eq (N : ℕ) (cov : ℕ → ℕ → ℝ) (hbar : ℝ) (i : ℕ) : vacDet N (Qmat N cov hbar) i = (Qsub N cov hbar {i}).det.re := by
  let e : Fin 2 ≃ ({i} : Finset ℕ) ⊕ ({i} : Finset ℕ) :=
    { toFun := fun a => if a = 0 then Sum.inl ⟨i, by simp⟩ else Sum.inr ⟨i, by simp⟩
      invFun := Sum.elim (fun _ => 0) (fun _ => 1)
      left_inv := by intro a; fin_cases a <;> rfl
      right_inv := by
        rintro (⟨x, hx⟩ | ⟨x, hx⟩) <;> simp only [Finset.mem_singleton] at hx <;> subst hx <;> rfl }
  rw [← det_submatrix_equiv_self e, Matrix.det_fin_two]
  unfold vacDet
  simp only [submatrix_apply, Qsub, of_apply, e, Equiv.coe_fn_mk, modeQuad, if_true, one_ne_zero, if_false, Sum.elim_inl, Sum.elim_inr, add_comm i N]
  congr 1
  ring

theorem vacProb_single (N : ℕ) (cov : ℕ → ℕ → ℝ) (hsym : ∀ i < 2 * N, ∀ j < 2 * N, cov i j = cov j i) (hbar : ℝ) (hh : 0 < hbar) (i : ℕ) (hi : i < N) :
    1 / Real.sqrt (vacDet N (Qmat N cov hbar) i) = vacProb N cov hbar {i} := by
  rw [vacDet_eq, vacProb_Qsub N cov hsym hbar hh _ (by simpa using hi)]

/-- the reduction used by `variance_clicks` yields the vacuum probability of the pair (also where `reduced_gaussian` does not permute) -/
theorem vacProb_pair (N : ℕ) (cov : ℕ → ℕ → ℝ) (hsym : ∀ i < 2 * N, ∀ j < 2 * N, cov i j = cov j i) (hbar : ℝ) (hh : 0 < hbar) (i j : ℕ) (hi : i < N)
    (hj : j < N) (hij : i ≠ j) :
    ∃ r, reducedGaussian ({ len := 2 * N, mu := fun _ => 0, cov := Qmat N cov hbar } : GState ℂ) [i, j] = .ok r
      ∧ 1 / Real.sqrt (toMatrix r.len r.len r.cov).det.re = vacProb N cov hbar {i, j} := by
  set st : GState ℂ := { len := 2 * N, mu := fun _ => 0, cov := Qmat N cov hbar } with hst
  have hsub : ({i, j} : Finset ℕ) ⊆ Finset.range N := by
    intro x hx
    rw [Finset.mem_insert, Finset.mem_singleton] at hx
    rw [Finset.mem_range]; rcases hx with rfl | rfl <;> assumption
  by_cases hN : N = 2
  · refine ⟨st, ?_, ?_⟩
    · unfold reducedGaussian
      have h2 : st.len / 2 = N := by simp only [hst]; omega
      simp only [h2]
      rw [if_neg (by simp; omega), if_pos (by simp [hN])]
    · rw [det_reduced N cov hbar (List.range N) List.nodup_range st (range_reduction N st rfl), vacProb_Qsub N cov hsym hbar hh _ hsub]
      have : (List.range N).toFinset = {i, j} := by
        rw [List.toFinset_range]
        symm
        apply Finset.eq_of_subset_of_card_le hsub
        rw [Finset.card_pair hij, Finset.card_range, hN]
      rw [this]
  · obtain ⟨r, hr, hR⟩ := reducedGaussian_partial N st rfl [i, j] (by simp) (by simp [hi, hj]) (Or.inl (by simp; omega))
    refine ⟨r, hr, ?_⟩
    rw [det_reduced N cov hbar [i, j] (by simpa using hij) r hR, vacProb_Qsub N cov hsym hbar hh _ hsub]
    have : [i, j].toFinset = {i, j} := by simp
    rw [this]

/-- no click in mode `j` -/
def dark (j : ℕ) (b : ℕ → Bool) : ℝ := if b j = false then 1 else 0

theorem stats_one (N : ℕ) (cov : ℕ → ℕ → ℝ) (hbar : ℝ) (E : ((ℕ → Bool) → ℝ) →ₗ[ℝ] ℝ) (hE : ClickStats N cov hbar E) : E (fun _ => 1) = 1 := by
  have := hE ∅ (by simp)
  simpa [vacProb] using this

theorem stats_dark (N : ℕ) (cov : ℕ → ℕ → ℝ) (hbar : ℝ) (E : ((ℕ → Bool) → ℝ) →ₗ[ℝ] ℝ) (hE : ClickStats N cov hbar E) (j : ℕ) (hj : j < N) :
    E (dark j) = vacProb N cov hbar {j} := by
  have := hE {j} (by simpa using hj)
  simp only [Finset.mem_singleton, forall_eq] at this
  exact this

theorem stats_dark2 (N : ℕ) (cov : ℕ → ℕ → ℝ) (hbar : ℝ) (E : ((ℕ → Bool) → ℝ) →ₗ[ℝ] ℝ) (hE : ClickStats N cov hbar E) (i j : ℕ) (hi : i < N) (hj : j < N) :
    E (fun b => dark i b * dark j b) = vacProb N cov hbar {i, j} := by
  have := hE {i, j} (by
    intro x hx
    rw [Finset.mem_insert, Finset.mem_singleton] at hx
    rw [Finset.mem_range]; rcases hx with rfl | rfl <;> assumption)
  rw [← this]
  congr 1
  funext b
  unfold dark
  by_cases h1 : b i = false <;> by_cases h2 : b j = false <;> simp [h1, h2]

theorem clicks_dark (N : ℕ) (b : ℕ → Bool) : clicks N b = ∑ j ∈ Finset.range N, (1 - dark j b) := by
  unfold clicks dark
  apply Finset.sum_congr rfl
  intro j _
  cases b j <;> simp

theorem stats_clicks (N : ℕ) (cov : ℕ → ℕ → ℝ) (hbar : ℝ) (E : ((ℕ → Bool) → ℝ) →ₗ[ℝ] ℝ) (hE : ClickStats N cov hbar E) :
    E (clicks N) = ∑ j ∈ Finset.range N, (1 - vacProb N cov hbar {j}) := by
  have : clicks N = ∑ j ∈ Finset.range N, ((fun _ => 1) - dark j) := by
    funext b; rw [clicks_dark, Finset.sum_apply]; rfl
  rw [this, map_sum]
  apply Finset.sum_congr rfl
  intro j hj
  rw [map_sub, stats_one N cov hbar E hE, stats_dark N cov hbar E hE j (Finset.mem_range.mp hj)]

/-- C56: `mean_clicks` is the expectation of the number of clicks. -/
theorem meanClicks_correct (N : ℕ) (cov : ℕ → ℕ → ℝ) (hsym : ∀ i < 2 * N, ∀ j < 2 * N, cov i j = cov j i) (hbar : ℝ) (hh : 0 < hbar)
    (E : ((ℕ → Bool) → ℝ) →ₗ[ℝ] ℝ) (hE : ClickStats N cov hbar E) : meanClicks N cov hbar = E (clicks N) := by
  rw [stats_clicks N cov hbar E hE, Finset.sum_sub_distrib, Finset.sum_const, Finset.card_range, nsmul_eq_mul, mul_one]
  unfold meanClicks
  rw [forRange_sub N (N : ℝ) fun i => 1 / Real.sqrt (vacDet N (Qmat N cov hbar) i)]
  congr 1
  exact Finset.sum_congr rfl fun j hj => vacProb_single N cov hsym hbar hh j (Finset.mem_range.mp hj)

theorem sum_symm (N : ℕ) (f : ℕ → ℕ → ℝ) (hf : ∀ i < N, ∀ j < N, f i j = f j i) :
    ∑ i ∈ Finset.range N, ∑ j ∈ Finset.range N, f i j = ∑ i ∈ Finset.range N, f i i + 2 * ∑ i ∈ Finset.range N, ∑ j ∈ Finset.range i, f i j := by
  induction N with
  | zero => simp
  | succ N ih =>
    have ih := ih fun i hi j hj => hf i (by omega) j (by omega)
    rw [Finset.sum_range_succ, Finset.sum_range_succ (fun i => f i i), Finset.sum_range_succ (fun i => ∑ j ∈ Finset.range i, f i j)]
    have e : ∑ i ∈ Finset.range N, ∑ j ∈ Finset.range (N + 1), f i j
        = ∑ i ∈ Finset.range N, ∑ j ∈ Finset.range N, f i j + ∑ j ∈ Finset.range N, f N j := by
      rw [← Finset.sum_add_distrib]
      apply Finset.sum_congr rfl
      intro i hi
      have := Finset.mem_range.mp hi
      rw [Finset.sum_range_succ, hf i (by omega) N (by omega)]
    rw [e, ih, Finset.sum_range_succ]
    ring

theorem foldlM_sum2 {α : Type} (l : List α) (f : ℝ → α → Except PyErr ℝ) (g : α → ℝ)
    (h : ∀ a ∈ l, ∀ t, f t a = .ok (t + g a)) (t : ℝ) : l.foldlM f t = (.ok (t + (l.map g).sum) : Except PyErr ℝ) := by
  induction l generalizing t with
  | nil => simp [pure, Except.pure]
  | cons a l ih =>
    rw [List.foldlM_cons, h a (by simp)]
    simp only [bind, Except.bind]
    rw [ih fun b hb => h b (by simp [hb]), List.map_cons, List.sum_cons, add_assoc]

/-- C56: `variance_clicks` is the variance of the number of clicks. -/
theorem varianceClicks_correct (N : ℕ) (cov : ℕ → ℕ → ℝ) (hsym : ∀ i < 2 * N, ∀ j < 2 * N, cov i j = cov j i) (hbar : ℝ) (hh : 0 < hbar)
    (E : ((ℕ → Bool) → ℝ) →ₗ[ℝ] ℝ) (hE : ClickStats N cov hbar E) :
    varianceClicks N cov hbar = .ok (E (fun b => clicks N b ^ 2) - E (clicks N) ^ 2) := by
  set p : ℕ → ℝ := fun i => vacProb N cov hbar {i} with hp
  set f : ℕ → ℕ → ℝ := fun i j => vacProb N cov hbar {i, j} - p i * p j with hf
  have hvar : E (fun b => clicks N b ^ 2) - E (clicks N) ^ 2 = ∑ i ∈ Finset.range N, ∑ j ∈ Finset.range N, f i j := by
    have e2 : (fun b => clicks N b ^ 2) = ∑ i ∈ Finset.range N, ∑ j ∈ Finset.range N, ((fun _ => 1) - dark i - dark j + fun b => dark i b * dark j b) := by
      funext b
      rw [clicks_dark, sq, Finset.sum_mul_sum, Finset.sum_apply]
      apply Finset.sum_congr rfl
      intro i _
      rw [Finset.sum_apply]
      apply Finset.sum_congr rfl
      intro j _
      simp only [Pi.add_apply, Pi.sub_apply]
      ring
    rw [e2, map_sum, stats_clicks N cov hbar E hE, sq, Finset.sum_mul_sum, ← Finset.sum_sub_distrib]
    apply Finset.sum_congr rfl
    intro i hi
    rw [map_sum, ← Finset.sum_sub_distrib]
    apply Finset.sum_congr rfl
    intro j hj
    have hi := Finset.mem_range.mp hi
    have hj := Finset.mem_range.mp hj
    rw [map_add, map_sub, map_sub, stats_one N cov hbar E hE, stats_dark N cov hbar E hE i hi, stats_dark N cov hbar E hE j hj,
      stats_dark2 N cov hbar E hE i j hi hj]
    simp only [hf, hp]
    ring
  rw [hvar, sum_symm N f (by intro i _ j _; simp only [hf]; rw [Finset.pair_comm]; ring)]
  have hvac : ∀ i < N, 1 / Real.sqrt (vacDet N (Qmat N cov hbar) i) = p i := fun i hi => vacProb_single N cov hsym hbar hh i hi
  unfold varianceClicks
  have hfold : (List.range N).foldlM (fun t i => (List.range i).foldlM (fun t j => do
      let r ← reducedGaussian (K := ℂ) { len := 2 * N, mu := fun _ => 0, cov := Qmat N cov hbar } [i, j]
      let p := 1 / Real.sqrt (toMatrix r.len r.len r.cov).det.re
      pure (t + (p - (1 / Real.sqrt (vacDet N (Qmat N cov hbar) i)) * (1 / Real.sqrt (vacDet N (Qmat N cov hbar) j))))) t) (0 : ℝ)
      = (.ok (0 + ((List.range N).map fun i => ((List.range i).map fun j => f i j).sum).sum) : Except PyErr ℝ) := by
    apply foldlM_sum2
    intro i hi t
    apply foldlM_sum2
    intro j hj t
    have hi := List.mem_range.mp hi
    have hj := List.mem_range.mp hj
    obtain ⟨r, hr, hv⟩ := vacProb_pair N cov hsym hbar hh i j hi (by omega) (by omega)
    rw [hr]
    simp only [bind, Except.bind, pure, Except.pure]
    rw [hv, hvac i hi, hvac j (by omega)]
  simp only [bind, Except.bind, pure, Except.pure] at hfold ⊢
  rw [hfold]
  have h1 : ((List.range N).map fun i => 1 / Real.sqrt (vacDet N (Qmat N cov hbar) i) * (1 - 1 / Real.sqrt (vacDet N (Qmat N cov hbar) i))).sum
      = ∑ i ∈ Finset.range N, f i i := by
    rw [← List.sum_toFinset _ List.nodup_range, List.toFinset_range]
    apply Finset.sum_congr rfl
    intro i hi
    rw [hvac i (Finset.mem_range.mp hi)]
    simp only [hf, hp, Finset.pair_eq_singleton]
    ring
  have h2 : ((List.range N).map fun i => ((List.range i).map fun j => f i j).sum).sum = ∑ i ∈ Finset.range N, ∑ j ∈ Finset.range i, f i j := by
    rw [← List.sum_toFinset _ List.nodup_range, List.toFinset_range]
    apply Finset.sum_congr rfl
    intro i _
    rw [← List.sum_toFinset _ List.nodup_range, List.toFinset_range]
  rw [← h1, ← h2, zero_add]

/-- the events "no click in `S`" are linearly independent functions of the click pattern -/
theorem dark_independent (N : ℕ) :
    LinearIndependent ℝ fun (S : Finset (Fin N)) (b : ℕ → Bool) => if ∀ j ∈ S, b (j : ℕ) = false then (1 : ℝ) else 0 := by
  classical
  rw [linearIndependent_iff']
  intro s g hg i hi
  by_contra hne
  obtain ⟨m, hm⟩ := (s.filter fun k => g k ≠ 0).exists_minimal ⟨i, Finset.mem_filter.mpr ⟨hi, hne⟩⟩
  have hms := Finset.mem_filter.mp hm.1
  have h := congrFun hg fun j => if h : j < N then decide ((⟨j, h⟩ : Fin N) ∉ m) else false
  rw [Finset.sum_apply] at h
  simp only [Pi.smul_apply, smul_eq_mul, Pi.zero_apply, Fin.is_lt, dite_true, Fin.eta] at h
  rw [Finset.sum_eq_single m] at h
  · rw [if_pos (by intro j hj; simp [hj]), mul_one] at h
    exact hms.2 h
  · intro k hk hkm
    by_cases h0 : g k = 0
    · rw [h0, zero_mul]
    · rw [if_neg, mul_zero]
      intro hall
      apply hkm
      have hle : k ≤ m := by
        intro j hj
        have := hall j hj
        simpa using this
      exact le_antisymm hle (hm.2 (Finset.mem_filter.mpr ⟨hk, h0⟩) hle)
  · intro h; exact absurd hms.1 h

/-- every covariance matrix has an expectation functional for the clicks -/
theorem clickStats_exists (N : ℕ) (cov : ℕ → ℕ → ℝ) (hbar : ℝ) : ∃ E, ClickStats N cov hbar E := by
  have hli := dark_independent N
  let c : Finset (Fin N) → ℝ := fun S => vacProb N cov hbar (S.map Fin.valEmbedding)
  obtain ⟨E, hE⟩ := LinearMap.exists_extend ((Finsupp.linearCombination ℝ c).comp hli.repr)
  refine ⟨E, fun S hS => ?_⟩
  set v := fun (S : Finset (Fin N)) (b : ℕ → Bool) => if ∀ j ∈ S, b (j : ℕ) = false then (1 : ℝ) else 0 with hv
  set T : Finset (Fin N) := Finset.univ.filter fun j => (j : ℕ) ∈ S with hT
  have hTS : T.map Fin.valEmbedding = S := by
    ext x
    simp only [Finset.mem_map, hT, Finset.mem_filter, Finset.mem_univ, true_and, Fin.valEmbedding_apply]
    constructor
    · rintro ⟨j, hj, rfl⟩; exact hj
    · intro hx; exact ⟨⟨x, Finset.mem_range.mp (hS hx)⟩, hx, rfl⟩
  have e : (fun b : ℕ → Bool => if ∀ j ∈ S, b j = false then (1 : ℝ) else 0) = v T := by
    funext b
    simp only [hv]
    congr 1
    rw [eq_iff_iff]
    constructor
    · intro h j hj; exact h j (by simpa [hT] using hj)
    · intro h j hj
      exact h ⟨j, Finset.mem_range.mp (hS hj)⟩ (by simpa [hT] using hj)
  rw [e]
  have hmem : v T ∈ Submodule.span ℝ (Set.range v) := Submodule.subset_span ⟨_, rfl⟩
  have := LinearMap.congr_fun hE ⟨_, hmem⟩
  simp only [LinearMap.comp_apply, Submodule.subtype_apply] at this
  rw [this, hli.repr_eq_single T ⟨_, hmem⟩ rfl, Finsupp.linearCombination_single, one_smul]
  simp only [c, hTS]

/-- the hypotheses are met by a squeezed-like covariance matrix with correlated modes -/
example : ∃ E, ClickStats 2 (fun i j => if i = j then 3 else 1) 2 E
    ∧ meanClicks 2 (fun i j => if i = j then 3 else 1) 2 = E (clicks 2)
    ∧ varianceClicks 2 (fun i j => if i = j then 3 else 1) 2 = .ok (E (fun b => clicks 2 b ^ 2) - E (clicks 2) ^ 2) := by
  obtain ⟨E, hE⟩ := clickStats_exists 2 (fun i j => if i = j then 3 else 1) 2
  have hsym : ∀ i < 2 * 2, ∀ j < 2 * 2, (fun i j : ℕ => if i = j then (3 : ℝ) else 1) i j = (fun i j : ℕ => if i = j then (3 : ℝ) else 1) j i := by
    intro i _ j _; simp only [eq_comm]
  exact ⟨E, hE, meanClicks_correct 2 _ hsym 2 (by norm_num) E hE, varianceClicks_correct 2 _ hsym 2 (by norm_num) E hE⟩

end Verif.Props
