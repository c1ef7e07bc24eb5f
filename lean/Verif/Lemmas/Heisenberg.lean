/-
The Heisenberg relations determine an operator up to a factor, and up to a factor it is unitary.
-/
import Verif.Spec.GaussianUnitary
import Verif.Lemmas.FockAmp
import Mathlib.Analysis.InnerProductSpace.l2Space
import Mathlib.Analysis.InnerProductSpace.Orthonormal

set_option linter.unusedSectionVars false
set_option linter.unusedSimpArgs false

namespace Verif.Lemmas.Heis
open Verif.Spec Verif.Lemmas Matrix

noncomputable section

variable {ι : Type} [Fintype ι] [DecidableEq ι]

abbrev Idx (ι : Type) := ι → ℕ
abbrev L2 (I : Type) := lp (fun _ : I => ℂ) 2

/-- the Bogoliubov relations -/
structure Bog (E F : Matrix ι ι ℂ) : Prop where
  a : Eᴴ * E - Fᵀ * F.map (starRingEnd ℂ) = 1
  b : Eᴴ * F = Fᵀ * E.map (starRingEnd ℂ)
  c : E * Eᴴ - F * Fᴴ = 1
  d : E * Fᵀ = F * Eᵀ

theorem root_conj (n : ℕ) : (starRingEnd ℂ) (root n) = root n := Complex.conj_ofReal _

theorem sub_add_e (k : Idx ι) (i : ι) (h : k i ≠ 0) : k - Pi.single i 1 + Pi.single i 1 = k := by
  funext x
  by_cases hx : x = i
  · subst hx; simp; omega
  · simp [hx]

theorem add_sub_e (k : Idx ι) (i : ι) : k + Pi.single i 1 - Pi.single i 1 = k := by
  funext x; simp

/-- a square summable family as an element of ℓ² -/
def toL2 {I : Type} (f : I → ℂ) (h : Summable fun i => ‖f i‖ ^ 2) : L2 I :=
  ⟨f, memℓp_gen (by simpa using h)⟩

theorem toL2_apply {I : Type} (f : I → ℂ) (h : Summable fun i => ‖f i‖ ^ 2) (i : I) : toL2 f h i = f i := rfl

/-- annihilation and creation operators are adjoint -/
theorem inner_ann (k : ι) (f g f' g' : L2 (Idx ι)) (hg : ∀ i, g' i = root (i k + 1) * g (i + Pi.single k 1))
    (hf : ∀ i, f' i = root (i k) * f (i - Pi.single k 1)) : inner ℂ f g' = inner ℂ f' g := by
  rw [lp.inner_eq_tsum, lp.inner_eq_tsum]
  have hinj : Function.Injective fun i : Idx ι => i + Pi.single k 1 := add_left_injective _
  rw [← hinj.tsum_eq (f := fun i => inner ℂ (f' i) (g i))]
  · refine tsum_congr fun i => ?_
    rw [hg, hf]
    simp only [RCLike.inner_apply, map_mul, root_conj, Pi.add_apply, Pi.single_eq_same, add_sub_e]
    ring
  · intro i hi
    have h0 : i k ≠ 0 := by
      intro h0
      apply hi
      simp only [hf, h0, root_zero, zero_mul, inner_zero_left]
    exact ⟨i - Pi.single k 1, sub_add_e i k h0⟩

/-- an operator that commutes with all annihilation and creation operators is a multiple of the identity -/
theorem commutant (G : Idx ι → Idx ι → ℂ)
    (h1 : ∀ k i j, root (i k + 1) * G (i + Pi.single k 1) j = root (j k) * G i (j - Pi.single k 1))
    (h2 : ∀ k i j, root (i k) * G (i - Pi.single k 1) j = root (j k + 1) * G i (j + Pi.single k 1)) (i j : Idx ι) :
    G i j = if i = j then G 0 0 else 0 := by
  induction hn : ∑ k, i k using Nat.strong_induction_on generalizing i j with
  | _ n ih =>
    by_cases hi : i = 0
    · subst hi
      by_cases hj : j = 0
      · rw [hj, if_pos rfl]
      · rw [if_neg (Ne.symm hj)]
        obtain ⟨k, hk⟩ : ∃ k, j k ≠ 0 := by
          by_contra h; push Not at h; exact hj (funext h)
        have h := h2 k 0 (j - Pi.single k 1)
        rw [sub_add_e j k hk] at h
        simp only [Pi.zero_apply, root_zero, zero_mul] at h
        exact (mul_eq_zero.mp h.symm).resolve_left (root_ne (Nat.succ_pos _))
    · obtain ⟨k, hk⟩ : ∃ k, i k ≠ 0 := by
        by_contra h; push Not at h; exact hi (funext h)
      have h := h1 k (i - Pi.single k 1) j
      rw [sub_add_e i k hk] at h
      have hlt : ∑ x, (i - Pi.single k 1 : Idx ι) x < n := by
        rw [← hn]
        refine Finset.sum_lt_sum (fun x _ => by simp) ⟨k, Finset.mem_univ k, by simp; omega⟩
      have hr : root ((i - Pi.single k 1 : Idx ι) k + 1) ≠ 0 := root_ne (Nat.succ_pos _)
      by_cases hjk : j k = 0
      · rw [hjk, root_zero, zero_mul] at h
        rw [if_neg (fun e => hk (by rw [e]; exact hjk))]
        exact (mul_eq_zero.mp h).resolve_left hr
      · rw [ih _ hlt _ _ rfl] at h
        by_cases hij : i = j
        · subst hij
          rw [if_pos rfl] at h ⊢
          have e : (i - Pi.single k 1 : Idx ι) k + 1 = i k := by simp; omega
          rw [e] at h
          exact mul_left_cancel₀ (root_ne (Nat.pos_of_ne_zero hk)) h
        · rw [if_neg, mul_zero] at h
          · rw [if_neg hij]
            exact (mul_eq_zero.mp h).resolve_left hr
          · intro e
            apply hij
            rw [← sub_add_e i k hk, e, sub_add_e j k hjk]

variable {E F : Matrix ι ι ℂ} {α : ι → ℂ} {U V : Idx ι → Idx ι → ℂ}

theorem heis_smul (h : Heisenberg E F α U) (c : ℂ) : Heisenberg E F α fun i j => c * U i j := by
  constructor
  · intro k i j
    have := congrArg (fun x => c * x) (h.ann k i j)
    simp only [mul_add, Finset.mul_sum] at this
    rw [mul_left_comm, this, ]
    congr 1
    · exact Finset.sum_congr rfl fun m _ => by ring
    · ring
  · intro k i j
    have := congrArg (fun x => c * x) (h.cre k i j)
    simp only [mul_add, Finset.mul_sum] at this
    rw [mul_left_comm, this]
    congr 1
    · exact Finset.sum_congr rfl fun m _ => by ring
    · ring

theorem heis_sub (h : Heisenberg E F α U) (h' : Heisenberg E F α V) : Heisenberg E F α fun i j => U i j - V i j := by
  constructor
  · intro k i j
    rw [mul_sub, h.ann, h'.ann, add_sub_add_comm, ← Finset.sum_sub_distrib]
    congr 1
    · exact Finset.sum_congr rfl fun m _ => by ring
    · ring
  · intro k i j
    rw [mul_sub, h.cre, h'.cre, add_sub_add_comm, ← Finset.sum_sub_distrib]
    congr 1
    · exact Finset.sum_congr rfl fun m _ => by ring
    · ring

/-- a solution with vanishing vacuum amplitude vanishes -/
theorem heis_zero (hE : IsUnit E) (h : Heisenberg E F α U) (h0 : U 0 0 = 0) (i j : Idx ι) : U i j = 0 := by
  have row : ∀ j, U 0 j = 0 := by
    intro j
    induction hn : ∑ k, j k using Nat.strong_induction_on generalizing j with
    | _ n ih =>
      by_cases hj : j = 0
      · rw [hj, h0]
      · obtain ⟨m, hm⟩ : ∃ k, j k ≠ 0 := by
          by_contra h; push Not at h; exact hj (funext h)
        set j' := j - Pi.single m 1 with hj'
        have hlt : ∑ x, j' x < n := by
          rw [← hn]
          exact Finset.sum_lt_sum (fun x _ => by simp [hj']) ⟨m, Finset.mem_univ m, by simp [hj']; omega⟩
        have hlow : ∀ x, U 0 (j' - Pi.single x 1) = 0 := fun x =>
          ih _ (lt_of_le_of_lt (Finset.sum_le_sum fun y _ => by simp) hlt) _ rfl
        have hc : ∀ k, ∑ x, (starRingEnd ℂ) (E k x) * (root (j' x + 1) * U 0 (j' + Pi.single x 1)) = 0 := by
          intro k
          have := h.cre k 0 j'
          simp only [Pi.zero_apply, root_zero, zero_mul, hlow, mul_zero, add_zero, ih _ hlt j' rfl] at this
          exact this.symm
        have hv : (E.map (starRingEnd ℂ)) *ᵥ (fun x => root (j' x + 1) * U 0 (j' + Pi.single x 1)) = 0 := by
          funext k; exact hc k
        have hEu : IsUnit (E.map (starRingEnd ℂ)) := hE.map (starRingEnd ℂ).mapMatrix
        have hz := Matrix.mulVec_injective_of_isUnit hEu (hv.trans (Matrix.mulVec_zero _).symm)
        have := congrFun hz m
        simp only [Pi.zero_apply] at this
        have := (mul_eq_zero.mp this).resolve_left (root_ne (Nat.succ_pos _))
        rwa [hj', sub_add_e j m hm] at this
  induction hn : ∑ k, i k using Nat.strong_induction_on generalizing i j with
  | _ n ih =>
    by_cases hi : i = 0
    · rw [hi, row]
    · obtain ⟨k, hk⟩ : ∃ k, i k ≠ 0 := by
        by_contra h; push Not at h; exact hi (funext h)
      set i' := i - Pi.single k 1 with hi'
      have hlt : ∑ x, i' x < n := by
        rw [← hn]
        exact Finset.sum_lt_sum (fun x _ => by simp [hi']) ⟨k, Finset.mem_univ k, by simp [hi']; omega⟩
      have ha := h.ann k i' j
      simp only [ih _ hlt i' _ rfl, mul_zero, add_zero, Finset.sum_const_zero] at ha
      rw [hi', sub_add_e i k hk] at ha
      exact (mul_eq_zero.mp ha).resolve_left (root_ne (Nat.succ_pos _))

/-- two solutions are proportional -/
theorem heis_prop (hE : IsUnit E) (h : Heisenberg E F α U) (h' : Heisenberg E F α V) (i j : Idx ι) : V 0 0 * U i j = U 0 0 * V i j := by
  have := heis_zero hE (heis_sub (heis_smul h (V 0 0)) (heis_smul h' (U 0 0))) (by ring) i j
  exact sub_eq_zero.mp this

/-! #### unitarity -/

/-- the Gram matrix of the columns commutes with the transformed operators -/
theorem gram_rel (h : Heisenberg E F α U) (hs : ∀ j, Summable fun i => ‖U i j‖ ^ 2) (G : Idx ι → Idx ι → ℂ)
    (hG : ∀ j j', G j j' = inner ℂ (toL2 (fun i => U i j) (hs j)) (toL2 (fun i => U i j') (hs j'))) (k : ι) (j j' : Idx ι) :
    ∑ m, (E k m * (root (j' m) * G j (j' - Pi.single m 1)) + F k m * (root (j' m + 1) * G j (j' + Pi.single m 1))) =
      ∑ m, (E k m * (root (j m + 1) * G (j + Pi.single m 1) j') + F k m * (root (j m) * G (j - Pi.single m 1) j')) := by
  set u : Idx ι → L2 (Idx ι) := fun j => toL2 (fun i => U i j) (hs j) with hu
  have hcoe : ∀ j i, u j i = U i j := fun j i => rfl
  have key := inner_ann k (u j) (u j')
    ((∑ m, ((starRingEnd ℂ (E k m) * root (j m + 1)) • u (j + Pi.single m 1) + (starRingEnd ℂ (F k m) * root (j m)) • u (j - Pi.single m 1))) + (starRingEnd ℂ (α k)) • u j)
    ((∑ m, ((E k m * root (j' m)) • u (j' - Pi.single m 1) + (F k m * root (j' m + 1)) • u (j' + Pi.single m 1))) + (α k) • u j')
    (fun i => by
      rw [hcoe, h.ann]
      simp only [lp.coeFn_add, lp.coeFn_sum, lp.coeFn_smul, Pi.add_apply, Finset.sum_apply, Pi.smul_apply, hcoe, smul_eq_mul, mul_assoc])
    (fun i => by
      rw [hcoe, h.cre]
      simp only [lp.coeFn_add, lp.coeFn_sum, lp.coeFn_smul, Pi.add_apply, Finset.sum_apply, Pi.smul_apply, hcoe, smul_eq_mul, mul_assoc])
  simp only [inner_add_right, inner_add_left, inner_sum, sum_inner, inner_smul_left, inner_smul_right, map_mul, root_conj, Complex.conj_conj, ← hG, hu] at key
  have := add_right_cancel key
  simp only [mul_assoc] at this
  exact this

theorem gram_conj (hs : ∀ j, Summable fun i => ‖U i j‖ ^ 2) (G : Idx ι → Idx ι → ℂ)
    (hG : ∀ j j', G j j' = inner ℂ (toL2 (fun i => U i j) (hs j)) (toL2 (fun i => U i j') (hs j'))) (j j' : Idx ι) : (starRingEnd ℂ) (G j j') = G j' j := by
  rw [hG, hG, inner_conj_symm]

theorem bog_solve (hb : Bog E F) (D C : ι → ℂ) (h1 : E *ᵥ D + F *ᵥ C = 0) (h2 : (F.map (starRingEnd ℂ)) *ᵥ D + (E.map (starRingEnd ℂ)) *ᵥ C = 0) : D = 0 := by
  have : (Eᴴ * E - Fᵀ * F.map (starRingEnd ℂ)) *ᵥ D + (Eᴴ * F - Fᵀ * E.map (starRingEnd ℂ)) *ᵥ C = Eᴴ *ᵥ (E *ᵥ D + F *ᵥ C) -
      Fᵀ *ᵥ ((F.map (starRingEnd ℂ)) *ᵥ D + (E.map (starRingEnd ℂ)) *ᵥ C) := by
    simp only [Matrix.sub_mulVec, Matrix.mulVec_add, Matrix.mulVec_mulVec]
    abel
  rw [h1, h2, hb.a, hb.b, sub_self, Matrix.zero_mulVec, Matrix.one_mulVec, Matrix.mulVec_zero, Matrix.mulVec_zero, add_zero, sub_zero] at this
  exact this

/-- the columns of a solution are orthogonal and have the same norm -/
theorem heis_gram (hb : Bog E F) (h : Heisenberg E F α U) (hs : ∀ j, Summable fun i => ‖U i j‖ ^ 2) (j j' : Idx ι) :
    inner ℂ (toL2 (fun i => U i j) (hs j)) (toL2 (fun i => U i j') (hs j')) = if j = j' then inner ℂ (toL2 (fun i => U i 0) (hs 0)) (toL2 (fun i => U i 0) (hs 0)) else 0 := by
  set G : Idx ι → Idx ι → ℂ := fun j j' => inner ℂ (toL2 (fun i => U i j) (hs j)) (toL2 (fun i => U i j') (hs j')) with hGdef
  have hG : ∀ j j', G j j' = inner ℂ (toL2 (fun i => U i j) (hs j)) (toL2 (fun i => U i j') (hs j')) := fun _ _ => rfl
  have hc := gram_conj hs G hG
  have hr := gram_rel h hs G hG
  have h1 : ∀ j j' : Idx ι, (fun m => root (j m + 1) * G (j + Pi.single m 1) j' - root (j' m) * G j (j' - Pi.single m 1)) = 0 := by
    intro j j'
    apply bog_solve hb _ (fun m => root (j m) * G (j - Pi.single m 1) j' - root (j' m + 1) * G j (j' + Pi.single m 1))
    · funext k
      have := hr k j j'
      simp only [Matrix.mulVec, dotProduct, Pi.add_apply, Pi.zero_apply, mul_sub, Finset.sum_sub_distrib]
      simp only [Finset.sum_add_distrib] at this
      linear_combination -this
    · funext k
      have := congrArg (starRingEnd ℂ) (hr k j' j)
      simp only [map_sum, map_add, map_mul, root_conj, hc] at this
      simp only [Matrix.mulVec, dotProduct, Pi.add_apply, Pi.zero_apply, mul_sub, Finset.sum_sub_distrib, Matrix.map_apply]
      simp only [Finset.sum_add_distrib] at this
      linear_combination this
  have e1 : ∀ k i j, root (i k + 1) * G (i + Pi.single k 1) j = root (j k) * G i (j - Pi.single k 1) := fun k i j =>
    sub_eq_zero.mp (congrFun (h1 i j) k)
  have e2 : ∀ k i j, root (i k) * G (i - Pi.single k 1) j = root (j k + 1) * G i (j + Pi.single k 1) := by
    intro k i j
    have := congrArg (starRingEnd ℂ) (e1 k j i)
    simp only [map_mul, root_conj, hc] at this
    exact this.symm
  exact commutant G e1 e2 j j'

/-- the adjoint of a solution -/
theorem heis_adjoint (hb : Bog E F) (h : Heisenberg E F α U) :
    Heisenberg Eᴴ (-Fᵀ) (-(Eᴴ *ᵥ α - Fᵀ *ᵥ fun k => (starRingEnd ℂ) (α k))) fun i j => (starRingEnd ℂ) (U j i) := by
  -- the relations of `U`, solved for the operators on the right
  have hA : ∀ i j : Idx ι, (fun k => root (i k + 1) * U (i + Pi.single k 1) j - α k * U i j) =
      E *ᵥ (fun m => root (j m) * U i (j - Pi.single m 1)) + F *ᵥ (fun m => root (j m + 1) * U i (j + Pi.single m 1)) := by
    intro i j; funext k
    rw [h.ann]; simp only [Matrix.mulVec, dotProduct, Pi.add_apply, ← Finset.sum_add_distrib, add_sub_cancel_right]
  have hC : ∀ i j : Idx ι, (fun k => root (i k) * U (i - Pi.single k 1) j - (starRingEnd ℂ) (α k) * U i j) =
      (E.map (starRingEnd ℂ)) *ᵥ (fun m => root (j m + 1) * U i (j + Pi.single m 1)) + (F.map (starRingEnd ℂ)) *ᵥ (fun m => root (j m) * U i (j - Pi.single m 1)) := by
    intro i j; funext k
    rw [h.cre]; simp only [Matrix.mulVec, dotProduct, Pi.add_apply, ← Finset.sum_add_distrib, add_sub_cancel_right, Matrix.map_apply]
  have h1 : ∀ i j : Idx ι, Eᴴ *ᵥ (fun k => root (i k + 1) * U (i + Pi.single k 1) j - α k * U i j) -
      Fᵀ *ᵥ (fun k => root (i k) * U (i - Pi.single k 1) j - (starRingEnd ℂ) (α k) * U i j) = fun m => root (j m) * U i (j - Pi.single m 1) := by
    intro i j
    rw [hA, hC, Matrix.mulVec_add, Matrix.mulVec_add, Matrix.mulVec_mulVec, Matrix.mulVec_mulVec, Matrix.mulVec_mulVec, Matrix.mulVec_mulVec, hb.b]
    have : ∀ a b c d : ι → ℂ, a + b - (b + d) = a - d := fun a b c d => by abel
    rw [this _ _ 0 _, ← Matrix.sub_mulVec, hb.a, Matrix.one_mulVec]
  have ea : (Eᵀ * E.map (starRingEnd ℂ) - Fᴴ * F) = 1 := by
    have := congrArg (fun M => M.map (starRingEnd ℂ)) hb.a
    ext i j
    have := congrFun (congrFun this i) j
    simp only [Matrix.map_apply, Matrix.sub_apply, Matrix.mul_apply, Matrix.conjTranspose_apply, Matrix.transpose_apply, map_sub, map_sum, map_mul, Complex.conj_conj,
      RCLike.star_def] at this ⊢
    rw [this]
    by_cases hij : i = j <;> simp [hij, Matrix.one_apply]
  have eb : Fᴴ * E = Eᵀ * F.map (starRingEnd ℂ) := by
    have := hb.b
    ext i j
    have := congrArg (starRingEnd ℂ) (congrFun (congrFun this i) j)
    simp only [Matrix.map_apply, Matrix.mul_apply, Matrix.conjTranspose_apply, Matrix.transpose_apply, map_sum, map_mul, Complex.conj_conj, RCLike.star_def] at this ⊢
    exact this.symm
  have h2 : ∀ i j : Idx ι, Eᵀ *ᵥ (fun k => root (i k) * U (i - Pi.single k 1) j - (starRingEnd ℂ) (α k) * U i j) -
      Fᴴ *ᵥ (fun k => root (i k + 1) * U (i + Pi.single k 1) j - α k * U i j) = fun m => root (j m + 1) * U i (j + Pi.single m 1) := by
    intro i j
    rw [hA, hC, Matrix.mulVec_add, Matrix.mulVec_add, Matrix.mulVec_mulVec, Matrix.mulVec_mulVec, Matrix.mulVec_mulVec, Matrix.mulVec_mulVec, eb]
    have : ∀ a b c d : ι → ℂ, a + b - (b + d) = a - d := fun a b c d => by abel
    rw [this _ _ 0 _, ← Matrix.sub_mulVec, ea, Matrix.one_mulVec]
  constructor
  · intro k i j
    have := congrArg (starRingEnd ℂ) (congrFun (h2 j i) k)
    simp only [Matrix.mulVec, dotProduct, Pi.sub_apply, map_sub, map_sum, map_mul, root_conj, Complex.conj_conj, Matrix.transpose_apply, Matrix.conjTranspose_apply,
      RCLike.star_def, mul_sub, Finset.sum_sub_distrib] at this
    rw [← this]
    simp only [Matrix.mulVec, dotProduct, Pi.sub_apply, Pi.neg_apply, Matrix.transpose_apply, Matrix.conjTranspose_apply, Matrix.neg_apply, RCLike.star_def,
      Finset.sum_add_distrib, neg_mul, Finset.sum_neg_distrib, sub_mul, Finset.sum_mul, mul_assoc]
    ring
  · intro k i j
    have := congrArg (starRingEnd ℂ) (congrFun (h1 j i) k)
    simp only [Matrix.mulVec, dotProduct, Pi.sub_apply, map_sub, map_sum, map_mul, root_conj, Complex.conj_conj, Matrix.transpose_apply, Matrix.conjTranspose_apply,
      RCLike.star_def, mul_sub, Finset.sum_sub_distrib] at this
    rw [← this]
    simp only [Matrix.mulVec, dotProduct, Pi.sub_apply, Pi.neg_apply, Matrix.transpose_apply, Matrix.conjTranspose_apply, Matrix.neg_apply, RCLike.star_def,
      Finset.sum_add_distrib, neg_mul, Finset.sum_neg_distrib, sub_mul, Finset.sum_mul, mul_assoc, map_neg, map_sub, map_sum, map_mul, Complex.conj_conj]
    ring

end

end Verif.Lemmas.Heis
