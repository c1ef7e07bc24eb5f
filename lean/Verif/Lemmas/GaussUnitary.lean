/-
The Gaussian unitary of a symplectic matrix and a displacement, as multidimensional Hermite amplitudes.
-/
import Verif.Lemmas.Bogoliubov
import Verif.Lemmas.HeisUnitary
import Verif.Props.FockPure
import Verif.Props.FockReduced

set_option linter.unusedSectionVars false
set_option linter.unusedSimpArgs false

namespace Verif.Lemmas.Heis
open Verif.Spec Verif.Lemmas Matrix Verif.Props

noncomputable section

/-! #### recursions of amplitudes -/

theorem fockAmp_unique {d : ℕ} (c : ℂ) (R : Matrix (Fin d) (Fin d) ℂ) (hR : R.IsSymm) (y : Fin d → ℂ) (f : (Fin d → ℕ) → ℂ) (h0 : f 0 = c)
    (h : ∀ k i, root (k i + 1) * f (k + Pi.single i 1) = y i * f k + ∑ j, R i j * (root (k j) * f (k - Pi.single j 1))) (k : Fin d → ℕ) : f k = fockAmp c R y k := by
  induction hn : ∑ i, k i using Nat.strong_induction_on generalizing k with
  | _ n ih =>
    by_cases hk : k = 0
    · rw [hk, h0, fockAmp_zero]
    · obtain ⟨i, hi⟩ : ∃ i, k i ≠ 0 := by
        by_contra hh; push Not at hh; exact hk (funext hh)
      have hlt : ∑ x, (k - Pi.single i 1 : Fin d → ℕ) x < n := by
        rw [← hn]
        exact Finset.sum_lt_sum (fun x _ => by simp) ⟨i, Finset.mem_univ i, by simp; omega⟩
      have h1 := h (k - Pi.single i 1) i
      have h2 := fockAmp_succ c R hR y (k - Pi.single i 1) i
      rw [sub_add_e k i hi] at h1 h2
      apply mul_left_cancel₀ (root_ne (Nat.succ_pos ((k - Pi.single i 1 : Fin d → ℕ) i)))
      rw [h1, h2, ih _ hlt _ rfl]
      congr 1
      refine Finset.sum_congr rfl fun j _ => ?_
      rw [ih _ (lt_of_le_of_lt (Finset.sum_le_sum fun y _ => by simp) hlt) _ rfl]

/-- rescaling of the indices -/
theorem fockAmp_scale {d : ℕ} (c : ℂ) (R : Matrix (Fin d) (Fin d) ℂ) (hR : R.IsSymm) (y s : Fin d → ℂ) (k : Fin d → ℕ) :
    fockAmp c (of fun i j => s i * R i j * s j) (fun i => s i * y i) k = (∏ i, s i ^ k i) * fockAmp c R y k := by
  symm
  refine fockAmp_unique c _ ?_ _ (fun k => (∏ i, s i ^ k i) * fockAmp c R y k) ?_ ?_ k
  · ext i j
    simp only [transpose_apply, of_apply]
    rw [hR.apply]; ring
  · simp [fockAmp_zero]
  · intro k i
    have hp : ∀ (k : Fin d → ℕ) i, ∏ x, s x ^ (k + Pi.single i 1 : Fin d → ℕ) x = s i * ∏ x, s x ^ k x := by
      intro k i
      simp only [Pi.add_apply, pow_add, Finset.prod_mul_distrib]
      rw [mul_comm]
      congr 1
      rw [Finset.prod_eq_single i] <;> simp +contextual
    have hm : ∀ j, root (k j) * ((∏ x, s x ^ (k - Pi.single j 1 : Fin d → ℕ) x) * fockAmp c R y (k - Pi.single j 1)) * s j =
        (∏ x, s x ^ k x) * (root (k j) * fockAmp c R y (k - Pi.single j 1)) := by
      intro j
      by_cases hj : k j = 0
      · simp [hj]
      · have := hp (k - Pi.single j 1) j
        rw [sub_add_e k j hj] at this
        rw [this]; ring
    rw [hp]
    have := fockAmp_succ c R hR y k i
    have e : root (k i + 1) * ((s i * ∏ x, s x ^ k x) * fockAmp c R y (k + Pi.single i 1)) = (s i * ∏ x, s x ^ k x) * (root (k i + 1) * fockAmp c R y (k + Pi.single i 1)) := by ring
    rw [e, this, mul_add, Finset.mul_sum]
    congr 1
    · ring
    · refine Finset.sum_congr rfl fun j _ => ?_
      simp only [of_apply]
      linear_combination -(s i * R i j) * hm j

/-! #### the matrix of the unitary -/

section mats
variable {ι : Type} [Fintype ι] [DecidableEq ι]

/-- the matrix of the amplitudes of the unitary -/
def uR (E F : Matrix ι ι ℂ) : Matrix (ι ⊕ ι) (ι ⊕ ι) ℂ := fromBlocks (F * (cj E)⁻¹) (E - F * (cj E)⁻¹ * cj F) (cj E)⁻¹ (-((cj E)⁻¹ * cj F))

/-- its loop weights -/
def uY (E F : Matrix ι ι ℂ) (α : ι → ℂ) : ι ⊕ ι → ℂ :=
  Sum.elim (α - (F * (cj E)⁻¹) *ᵥ star α) (-((cj E)⁻¹ *ᵥ star α))

/-- its vacuum amplitude -/
def uVac (E F : Matrix ι ι ℂ) (α : ι → ℂ) : ℂ :=
  Complex.exp (-(1 / 2) * (((∑ k, ‖α k‖ ^ 2 : ℝ) : ℂ) - star α ⬝ᵥ ((F * (cj E)⁻¹) *ᵥ star α))) / ((Real.sqrt ‖E.det‖ : ℝ) : ℂ)

variable {E F : Matrix ι ι ℂ} {α : ι → ℂ}

theorem cj_isUnit (h : IsUnit E) : IsUnit (cj E) := h.map (starRingEnd ℂ).mapMatrix

theorem cj_inv_mul (h : Bog E F) : (cj E)⁻¹ * cj E = 1 := Matrix.nonsing_inv_mul _ ((isUnit_iff_isUnit_det _).mp (cj_isUnit (bog_isUnit h)))
theorem cj_mul_inv (h : Bog E F) : cj E * (cj E)⁻¹ = 1 := Matrix.mul_nonsing_inv _ ((isUnit_iff_isUnit_det _).mp (cj_isUnit (bog_isUnit h)))

theorem M_symm (h : Bog E F) : (F * (cj E)⁻¹)ᵀ = F * (cj E)⁻¹ := by
  have hu := cj_isUnit (bog_isUnit h)
  have h1 : Eᴴ * (F * (cj E)⁻¹) = Fᵀ := by
    rw [← Matrix.mul_assoc, h.b, Matrix.mul_assoc, cj_mul_inv h, Matrix.mul_one]
  have h2 : Eᴴ * (F * (cj E)⁻¹)ᵀ = Fᵀ := by
    rw [transpose_mul, ← transpose_cj, ← Matrix.mul_assoc, ← transpose_mul, cj_inv_mul h, transpose_one, Matrix.one_mul]
  have hE : IsUnit Eᴴ := (Matrix.isUnit_conjTranspose E).mpr (bog_isUnit h)
  exact hE.mul_left_cancel (h2.trans h1.symm)

theorem uR_symm (h : Bog E F) : (uR E F).IsSymm := by
  have hE : IsUnit Eᴴ := (Matrix.isUnit_conjTranspose E).mpr (bog_isUnit h)
  have h12 : (E - F * (cj E)⁻¹ * cj F) = ((cj E)⁻¹)ᵀ := by
    apply hE.mul_left_cancel
    rw [Matrix.mul_sub, ← transpose_cj, ← transpose_mul, cj_inv_mul h, transpose_one, transpose_cj, ← Matrix.mul_assoc, ← Matrix.mul_assoc, h.b, Matrix.mul_assoc Fᵀ, cj_mul_inv h,
      Matrix.mul_one, h.a]
  have h22 : ((cj E)⁻¹ * cj F)ᵀ = (cj E)⁻¹ * cj F := by
    apply (cj_isUnit (bog_isUnit h)).mul_left_cancel
    apply hE.mul_right_cancel
    rw [← Matrix.mul_assoc (cj E) (cj E)⁻¹, cj_mul_inv h, Matrix.one_mul, transpose_mul, transpose_cj, Matrix.mul_assoc, Matrix.mul_assoc, ← transpose_cj E, ← transpose_mul,
      cj_mul_inv h, transpose_one, Matrix.mul_one]
    have := congrArg cj h.d
    rw [cj_mul, cj_mul, cj_transpose, cj_transpose] at this
    rw [this, transpose_cj]
  unfold uR Matrix.IsSymm
  rw [fromBlocks_transpose, M_symm h, transpose_neg, h22, ← h12]
  congr 1
  rw [h12, transpose_transpose]

/-- the recursions of the amplitudes are the Heisenberg relations -/
theorem heis_of_rec (h : Bog E F) (U : Idx ι → Idx ι → ℂ)
    (h1 : ∀ k i j, root (i k + 1) * U (i + Pi.single k 1) j = uY E F α (.inl k) * U i j + ∑ m, uR E F (.inl k) (.inl m) * (root (i m) * U (i - Pi.single m 1) j) +
      ∑ m, uR E F (.inl k) (.inr m) * (root (j m) * U i (j - Pi.single m 1)))
    (h2 : ∀ k i j, root (j k + 1) * U i (j + Pi.single k 1) = uY E F α (.inr k) * U i j + ∑ m, uR E F (.inr k) (.inl m) * (root (i m) * U (i - Pi.single m 1) j) +
      ∑ m, uR E F (.inr k) (.inr m) * (root (j m) * U i (j - Pi.single m 1))) : Heisenberg E F α U := by
  -- creation and annihilation operators as vectors
  have key : ∀ i j : Idx ι,
      (fun k => root (i k) * U (i - Pi.single k 1) j) = cj E *ᵥ (fun m => root (j m + 1) * U i (j + Pi.single m 1)) + cj F *ᵥ (fun m => root (j m) * U i (j - Pi.single m 1)) +
        (U i j) • star α := by
    intro i j
    have e : (fun m => root (j m + 1) * U i (j + Pi.single m 1)) = -((U i j) • ((cj E)⁻¹ *ᵥ star α)) + (cj E)⁻¹ *ᵥ (fun k => root (i k) * U (i - Pi.single k 1) j) -
        ((cj E)⁻¹ * cj F) *ᵥ fun m => root (j m) * U i (j - Pi.single m 1) := by
      funext k
      rw [h2]
      simp only [uY, uR, Sum.elim_inr, fromBlocks_apply₂₁, fromBlocks_apply₂₂, Pi.neg_apply, Matrix.neg_apply, neg_mul, Finset.sum_neg_distrib, Pi.add_apply, Pi.sub_apply, Pi.smul_apply,
        smul_eq_mul, Matrix.mulVec, dotProduct]
      ring
    rw [e, Matrix.mulVec_sub, Matrix.mulVec_add, Matrix.mulVec_neg, Matrix.mulVec_smul, Matrix.mulVec_mulVec, Matrix.mulVec_mulVec, Matrix.mulVec_mulVec, ← Matrix.mul_assoc, cj_mul_inv h, Matrix.one_mul,
      Matrix.one_mulVec, Matrix.one_mulVec]
    abel
  have key2 : ∀ i j : Idx ι,
      (fun k => root (i k + 1) * U (i + Pi.single k 1) j) = E *ᵥ (fun m => root (j m) * U i (j - Pi.single m 1)) + F *ᵥ (fun m => root (j m + 1) * U i (j + Pi.single m 1)) +
        (U i j) • α := by
    intro i j
    have e : (fun k => root (i k + 1) * U (i + Pi.single k 1) j) = (U i j) • (α - (F * (cj E)⁻¹) *ᵥ star α) + (F * (cj E)⁻¹) *ᵥ (fun k => root (i k) * U (i - Pi.single k 1) j) +
        (E - F * (cj E)⁻¹ * cj F) *ᵥ fun m => root (j m) * U i (j - Pi.single m 1) := by
      funext k
      rw [h1]
      simp only [uY, uR, Sum.elim_inl, fromBlocks_apply₁₁, fromBlocks_apply₁₂, Pi.add_apply, Pi.sub_apply, Pi.smul_apply, smul_eq_mul, Matrix.mulVec, dotProduct]
      ring
    rw [e, key, Matrix.mulVec_add, Matrix.mulVec_add, Matrix.mulVec_mulVec, Matrix.mulVec_mulVec, Matrix.mul_assoc F, cj_inv_mul h, Matrix.mul_one, Matrix.sub_mulVec, Matrix.mulVec_smul, smul_sub]
    abel
  constructor
  · intro k i j
    have := congrFun (key2 i j) k
    simp only [Pi.add_apply, Pi.smul_apply, smul_eq_mul, Matrix.mulVec, dotProduct] at this
    rw [this, Finset.sum_add_distrib]
    ring
  · intro k i j
    have := congrFun (key i j) k
    simp only [Pi.add_apply, Pi.smul_apply, smul_eq_mul, Matrix.mulVec, dotProduct, Matrix.map_apply, Pi.star_apply, RCLike.star_def] at this
    rw [this, Finset.sum_add_distrib]
    ring

end mats

/-! #### the unitary of `l` modes -/

variable {l : ℕ}

/-- occupation numbers of the outputs and of the inputs as one list -/
def pairN (i j : Fin l → ℕ) : Fin (2 * l) → ℕ := fun x => Sum.elim i j ((quadEquiv l).symm x)

/-- the matrix elements of the unitary -/
def gaussU (S : Matrix (Fin l ⊕ Fin l) (Fin l ⊕ Fin l) ℝ) (α : Fin l → ℂ) (i j : Fin l → ℕ) : ℂ :=
  fockAmp (uVac (bogE S) (bogF S) α) ((uR (bogE S) (bogF S)).submatrix (quadEquiv l).symm (quadEquiv l).symm) (uY (bogE S) (bogF S) α ∘ (quadEquiv l).symm) (pairN i j)

theorem pairN_inl (i j : Fin l → ℕ) (k : Fin l) : pairN i j (quadEquiv l (.inl k)) = i k := by simp [pairN]
theorem pairN_inr (i j : Fin l → ℕ) (k : Fin l) : pairN i j (quadEquiv l (.inr k)) = j k := by simp [pairN]

theorem pairN_ext {f : Fin (2 * l) → ℕ} {i j : Fin l → ℕ} (h1 : ∀ k, f (quadEquiv l (.inl k)) = i k) (h2 : ∀ k, f (quadEquiv l (.inr k)) = j k) : f = pairN i j := by
  funext x
  obtain ⟨p, rfl⟩ := (quadEquiv l).surjective x
  rcases p with k | k
  · rw [h1, pairN_inl]
  · rw [h2, pairN_inr]

theorem single_quad (p q : Fin l ⊕ Fin l) : (Pi.single (quadEquiv l p) 1 : Fin (2 * l) → ℕ) (quadEquiv l q) = if q = p then 1 else 0 := by
  rw [Pi.single_apply]
  simp

theorem pairN_add_inl (i j : Fin l → ℕ) (k : Fin l) : pairN i j + Pi.single (quadEquiv l (.inl k)) 1 = pairN (i + Pi.single k 1) j := by
  apply pairN_ext <;> intro m <;> simp only [Pi.add_apply, pairN_inl, pairN_inr, Pi.single_apply, EmbeddingLike.apply_eq_iff_eq, Sum.inl.injEq, reduceCtorEq, if_false, add_zero]

theorem pairN_add_inr (i j : Fin l → ℕ) (k : Fin l) : pairN i j + Pi.single (quadEquiv l (.inr k)) 1 = pairN i (j + Pi.single k 1) := by
  apply pairN_ext <;> intro m <;> simp only [Pi.add_apply, pairN_inl, pairN_inr, Pi.single_apply, EmbeddingLike.apply_eq_iff_eq, Sum.inr.injEq, reduceCtorEq, if_false, add_zero]

theorem pairN_sub_inl (i j : Fin l → ℕ) (k : Fin l) : pairN i j - Pi.single (quadEquiv l (.inl k)) 1 = pairN (i - Pi.single k 1) j := by
  apply pairN_ext <;> intro m <;> simp only [Pi.sub_apply, pairN_inl, pairN_inr, Pi.single_apply, EmbeddingLike.apply_eq_iff_eq, Sum.inl.injEq, reduceCtorEq, if_false, Nat.sub_zero]

theorem pairN_sub_inr (i j : Fin l → ℕ) (k : Fin l) : pairN i j - Pi.single (quadEquiv l (.inr k)) 1 = pairN i (j - Pi.single k 1) := by
  apply pairN_ext <;> intro m <;> simp only [Pi.sub_apply, pairN_inl, pairN_inr, Pi.single_apply, EmbeddingLike.apply_eq_iff_eq, Sum.inr.injEq, reduceCtorEq, if_false, Nat.sub_zero]

theorem pairN_zero : pairN (0 : Fin l → ℕ) 0 = 0 := by
  symm; exact pairN_ext (fun _ => rfl) fun _ => rfl

/-- amplitudes of any matrix on pairs of modes -/
theorem pair_rec {c : ℂ} {R : Matrix (Fin l ⊕ Fin l) (Fin l ⊕ Fin l) ℂ} (hR : R.IsSymm) {y : Fin l ⊕ Fin l → ℂ} (i j : Fin l → ℕ) (p : Fin l ⊕ Fin l) :
    root (Sum.elim i j p + 1) * fockAmp c (R.submatrix (quadEquiv l).symm (quadEquiv l).symm) (y ∘ (quadEquiv l).symm) (pairN i j + Pi.single (quadEquiv l p) 1) =
      y p * fockAmp c (R.submatrix (quadEquiv l).symm (quadEquiv l).symm) (y ∘ (quadEquiv l).symm) (pairN i j) +
      ∑ m, R p (.inl m) * (root (i m) * fockAmp c (R.submatrix (quadEquiv l).symm (quadEquiv l).symm) (y ∘ (quadEquiv l).symm) (pairN (i - Pi.single m 1) j)) +
      ∑ m, R p (.inr m) * (root (j m) * fockAmp c (R.submatrix (quadEquiv l).symm (quadEquiv l).symm) (y ∘ (quadEquiv l).symm) (pairN i (j - Pi.single m 1))) := by
  have h := fockAmp_succ c (R.submatrix (quadEquiv l).symm (quadEquiv l).symm) (hR.submatrix _) (y ∘ (quadEquiv l).symm) (pairN i j) (quadEquiv l p)
  have e : pairN i j (quadEquiv l p) = Sum.elim i j p := by simp [pairN]
  rw [e] at h
  rw [h, ← (quadEquiv l).sum_comp, Fintype.sum_sum_type]
  simp only [submatrix_apply, Equiv.symm_apply_apply, Function.comp_apply, pairN_inl, pairN_inr, pairN_sub_inl, pairN_sub_inr]
  rw [add_assoc]

theorem gaussU_zero (S : Matrix (Fin l ⊕ Fin l) (Fin l ⊕ Fin l) ℝ) (α : Fin l → ℂ) : gaussU S α 0 0 = uVac (bogE S) (bogF S) α := by
  unfold gaussU
  rw [pairN_zero, fockAmp_zero]

theorem gaussU_heis {S : Matrix (Fin l ⊕ Fin l) (Fin l ⊕ Fin l) ℝ} (hS : S ∈ symplecticGroup (Fin l) ℝ) (α : Fin l → ℂ) :
    Heisenberg (bogE S) (bogF S) α (gaussU S α) := by
  have hb := symp_bog hS
  apply heis_of_rec hb
  · intro k i j
    have := pair_rec (c := uVac (bogE S) (bogF S) α) (uR_symm hb) (y := uY (bogE S) (bogF S) α) i j (.inl k)
    rw [pairN_add_inl] at this
    exact this
  · intro k i j
    have := pair_rec (c := uVac (bogE S) (bogF S) α) (uR_symm hb) (y := uY (bogE S) (bogF S) α) i j (.inr k)
    rw [pairN_add_inr] at this
    exact this

end

end Verif.Lemmas.Heis
