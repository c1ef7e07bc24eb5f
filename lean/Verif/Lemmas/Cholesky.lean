/-
Cholesky factors: the updating scheme of `quad_cholesky`, determinants, and forward substitution.
-/
import Verif.Model.Torontonian
import Verif.Spec.Torontonian
import Verif.Lemmas.Householder
import Mathlib.Analysis.Matrix.PosDef
import Mathlib.LinearAlgebra.Matrix.Block
import Mathlib.Tactic.LinearCombination

set_option linter.unusedSectionVars false
set_option linter.unusedSimpArgs false

namespace Verif.Lemmas.Chol
open Verif.Model Verif.Model.Symp Verif.Model.Tor Verif.Spec Matrix
open scoped ComplexOrder

/-- `L` is the Cholesky factor of the leading `d × d` block of `M` -/
structure IsChol (d : ℕ) (M L : ℕ → ℕ → ℂ) : Prop where
  lower : ∀ i < d, ∀ j < d, i < j → L i j = 0
  diag : ∀ i < d, ∃ r : ℝ, 0 < r ∧ L i i = r
  eq : ∀ i < d, ∀ j ≤ i, ∑ k ∈ Finset.range (j + 1), L i k * (starRingEnd ℂ) (L j k) = M i j

/-- the Schur complement of the leading block is positive -/
theorem schur_pos (d i : ℕ) (hi : i < d) (M L : ℕ → ℕ → ℂ) (hM : (toMatrix d d M).PosDef) (hL : IsChol i M L)
    (hrow : ∀ j < i, ∑ k ∈ Finset.range (j + 1), L i k * (starRingEnd ℂ) (L j k) = M i j) :
    ∃ t : ℝ, 0 < t ∧ M i i - ∑ k ∈ Finset.range i, L i k * (starRingEnd ℂ) (L i k) = t := by
  set s : ℂ := M i i - ∑ k ∈ Finset.range i, L i k * (starRingEnd ℂ) (L i k) with hs
  have hherm : ∀ a < d, ∀ b < d, M a b = (starRingEnd ℂ) (M b a) := by
    intro a ha b hb
    have := congrFun (congrFun hM.1 ⟨a, ha⟩) ⟨b, hb⟩
    simpa [toMatrix, conjTranspose_apply] using this.symm
  let Tf : ℕ → ℕ → ℂ := fun a k => if a < k then 0 else if k = i then 1 else L a k
  let T : Matrix (Fin (i + 1)) (Fin (i + 1)) ℂ := of fun a k => Tf a k
  let D : Fin (i + 1) → ℂ := fun k => if (k : ℕ) = i then s else 1
  have hsub : (toMatrix (i + 1) (i + 1) M).PosDef := by
    have := hM.submatrix (e := Fin.castLE (show i + 1 ≤ d by omega)) (Fin.castLE_injective _)
    exact this
  have hss : (starRingEnd ℂ) s = s := by
    rw [hs, map_sub, ← hherm i hi i hi, map_sum]
    congr 1
    refine Finset.sum_congr rfl fun k _ => ?_
    rw [map_mul, Complex.conj_conj, mul_comm]
  -- the lower half of the product
  have hlow : ∀ a ≤ i, ∀ b ≤ a, ∑ k ∈ Finset.range (i + 1), Tf a k * (if k = i then s else 1) * (starRingEnd ℂ) (Tf b k) = M a b := by
    intro a ha b hb
    by_cases hbi : b = i
    · have hai : a = i := by omega
      rw [hai, hbi, Finset.sum_range_succ]
      have h1 : ∑ k ∈ Finset.range i, Tf i k * (if k = i then s else 1) * (starRingEnd ℂ) (Tf i k) = ∑ k ∈ Finset.range i, L i k * (starRingEnd ℂ) (L i k) := by
        refine Finset.sum_congr rfl fun k hk => ?_
        have := Finset.mem_range.mp hk
        simp only [Tf]
        rw [if_neg (by omega), if_neg (by omega), if_neg (by omega), mul_one]
      rw [h1]
      simp only [Tf, lt_irrefl, if_false, if_true, map_one, mul_one, one_mul]
      rw [hs]; ring
    · have hsplit : Finset.range (b + 1) ⊆ Finset.range (i + 1) := Finset.range_subset_range.mpr (by omega)
      rw [← Finset.sum_subset hsplit]
      · have h1 : ∑ k ∈ Finset.range (b + 1), Tf a k * (if k = i then s else 1) * (starRingEnd ℂ) (Tf b k) =
            ∑ k ∈ Finset.range (b + 1), L a k * (starRingEnd ℂ) (L b k) := by
          refine Finset.sum_congr rfl fun k hk => ?_
          have := Finset.mem_range.mp hk
          simp only [Tf]
          rw [if_neg (by omega), if_neg (by omega), if_neg (by omega), if_neg (by omega), mul_one]
          rw [if_neg (by omega)]
        rw [h1]
        by_cases hai : a = i
        · subst hai; exact hrow b (by omega)
        · exact hL.eq a (by omega) b hb
      · intro k hk hk'
        have h1 := Finset.mem_range.mp hk
        have h2 : b < k := by
          by_contra h
          exact hk' (Finset.mem_range.mpr (by omega))
        simp only [Tf]
        rw [if_pos h2, map_zero, mul_zero]
  have hfac : T * diagonal D * Tᴴ = toMatrix (i + 1) (i + 1) M := by
    ext a b
    rw [Matrix.mul_apply]
    simp only [mul_diagonal, conjTranspose_apply, T, of_apply, D, toMatrix]
    have hsum : ∀ a b : ℕ, ∑ k : Fin (i + 1), Tf a k * (if (k : ℕ) = i then s else 1) * star (Tf b k) =
        ∑ k ∈ Finset.range (i + 1), Tf a k * (if k = i then s else 1) * (starRingEnd ℂ) (Tf b k) := fun a b =>
      Fin.sum_univ_eq_sum_range (fun k => Tf a k * (if k = i then s else 1) * (starRingEnd ℂ) (Tf b k)) (i + 1)
    rw [hsum]
    rcases le_total (b : ℕ) (a : ℕ) with h | h
    · exact hlow a (by omega) b h
    · have := hlow b (by omega) a h
      rw [hherm a (by omega) b (by omega), ← this, map_sum]
      refine Finset.sum_congr rfl fun k _ => ?_
      have hss' : (starRingEnd ℂ) (if k = i then s else 1) = if k = i then s else 1 := by
        split_ifs
        · exact hss
        · exact map_one _
      rw [map_mul, map_mul, Complex.conj_conj, hss']
      ring
  have hTdet : IsUnit T := by
    rw [isUnit_iff_isUnit_det, det_of_lowerTriangular T]
    · rw [isUnit_iff_ne_zero, Finset.prod_ne_zero_iff]
      intro a _
      simp only [T, of_apply, Tf, lt_irrefl, if_false]
      split_ifs with h
      · exact one_ne_zero
      · obtain ⟨r, hr, e⟩ := hL.diag a (by omega)
        rw [e]
        exact_mod_cast hr.ne'
    · intro a b hab
      have : (a : ℕ) < b := hab
      simp only [T, of_apply, Tf, if_pos this]
  rw [← hfac] at hsub
  have hD : (diagonal D).PosDef := by
    rwa [← star_eq_conjTranspose, IsUnit.posDef_star_right_conjugate_iff hTdet] at hsub
  rw [posDef_diagonal_iff] at hD
  have h0 := hD ⟨i, by omega⟩
  simp only [D, if_true] at h0
  rw [Complex.lt_def] at h0
  exact ⟨s.re, h0.1, Complex.ext rfl (by simpa using h0.2.symm)⟩

theorem csqrt_ofReal (t : ℝ) (ht : 0 ≤ t) : csqrt (t : ℂ) = (Real.sqrt t : ℝ) := by
  unfold csqrt
  rw [Real.sqrt_eq_rpow, Complex.ofReal_cpow ht]
  norm_num

theorem upd2_same (a : ℕ → ℕ → ℂ) (i j : ℕ) (v : ℂ) : upd2 a i j v i j = v := by simp [upd2]

theorem upd2_ne (a : ℕ → ℕ → ℂ) (i j : ℕ) (v : ℂ) (i' j' : ℕ) (h : ¬ (i' = i ∧ j' = j)) : upd2 a i j v i' j' = a i' j' := by simp [upd2, h]

theorem forRange_addsum (n : ℕ) (f : ℕ → ℂ) : forRange n 0 (fun k z => z + f k) = ∑ k ∈ Finset.range n, f k := by
  induction n with
  | zero => simp
  | succ n ih => rw [forRange_succ, ih, Finset.sum_range_succ]

theorem quadCholesky_core (len idx : ℕ) (L mat : ℕ → ℕ → ℂ) (Z : List ℕ) (hidx : idx ≤ len)
    (hlow : ∀ a < len, ∀ b < len, a < b → L (Z.getD a 0) (Z.getD b 0) = 0) (h0 : IsChol idx mat fun a b => L (Z.getD a 0) (Z.getD b 0))
    (hrow0 : ∀ i < len, idx ≤ i → ∀ b < idx,
      ∑ k ∈ Finset.range (b + 1), L (Z.getD i 0) (Z.getD k 0) * (starRingEnd ℂ) (L (Z.getD b 0) (Z.getD k 0)) = mat i b)
    (hpos : (toMatrix len len mat).PosDef) :
    IsChol len mat (quadCholesky L Z idx len mat) := by
  unfold quadCholesky
  have key := forRange2_inv (fun i (Ls : ℕ → ℕ → ℂ) =>
      (∀ a b, (a < idx ∨ i ≤ a ∨ b < idx ∨ a < b) → Ls a b = L (Z.getD a 0) (Z.getD b 0)) ∧ IsChol i mat Ls) hidx
    (fun i j => L (Z.getD i 0) (Z.getD j 0))
    (fun i Ls =>
      let Ls := forRange2 idx i Ls fun j Ls =>
        let z := forRange j 0 fun k z => z + Ls i k * (starRingEnd ℂ) (Ls j k)
        upd2 Ls i j ((mat i j - z) / Ls j j)
      let z := forRange i 0 fun k z => z + Ls i k * (starRingEnd ℂ) (Ls i k)
      upd2 Ls i i (((csqrt (mat i i - z)).re : ℝ) : ℂ)) ?_ ?_
  · exact key.2
  · exact ⟨fun _ _ _ => rfl, h0⟩
  · intro i Ls hi1 hi2 ⟨hunch, hch⟩
    -- the row loop
    have inner := forRange2_inv (fun j (Ls' : ℕ → ℕ → ℂ) =>
        (∀ a b, ¬ (a = i ∧ idx ≤ b ∧ b < j) → Ls' a b = Ls a b) ∧
        (∀ b < j, ∑ k ∈ Finset.range (b + 1), Ls' i k * (starRingEnd ℂ) (Ls' b k) = mat i b)) hi1 Ls
      (fun j Ls =>
        let z := forRange j 0 fun k z => z + Ls i k * (starRingEnd ℂ) (Ls j k)
        upd2 Ls i j ((mat i j - z) / Ls j j)) ?_ ?_
    · obtain ⟨hkeep, heq⟩ := inner
      set Lr := forRange2 idx i Ls fun j Ls =>
        let z := forRange j 0 fun k z => z + Ls i k * (starRingEnd ℂ) (Ls j k)
        upd2 Ls i j ((mat i j - z) / Ls j j) with hLr
      have hrows : ∀ a < i, ∀ b, Lr a b = Ls a b := fun a ha b => hkeep a b (by omega)
      have hchr : IsChol i mat Lr := by
        refine ⟨?_, ?_, ?_⟩
        · intro a ha b hb hab
          rw [hrows a ha]
          exact hch.lower a ha b hb hab
        · intro a ha
          rw [hrows a ha]
          exact hch.diag a ha
        · intro a ha b hb
          rw [← hch.eq a ha b hb]
          refine Finset.sum_congr rfl fun k _ => ?_
          rw [hrows a ha, hrows b (by omega)]
      obtain ⟨t, ht, het⟩ := schur_pos len i hi2 mat Lr hpos hchr heq
      have hdiagval : (((csqrt (mat i i - forRange i 0 fun k z => z + Lr i k * (starRingEnd ℂ) (Lr i k))).re : ℝ) : ℂ) = (Real.sqrt t : ℝ) := by
        rw [forRange_addsum i fun k => Lr i k * (starRingEnd ℂ) (Lr i k), het, csqrt_ofReal t ht.le, Complex.ofReal_re]
      simp only []
      rw [hdiagval]
      set Ln := upd2 Lr i i ((Real.sqrt t : ℝ) : ℂ) with hLn
      have hne : ∀ a b, ¬ (a = i ∧ b = i) → Ln a b = Lr a b := fun a b h => upd2_ne _ _ _ _ _ _ h
      refine ⟨?_, ⟨?_, ?_, ?_⟩⟩
      · intro a b h
        rw [hne a b (by omega), hkeep a b (by omega)]
        exact hunch a b (by omega)
      · intro a ha b hb hab
        rw [hne a b (by omega), hrows a (by omega)]
        rcases Nat.lt_or_ge b i with h | h
        · exact hch.lower a (by omega) b h hab
        · rw [hunch a b (by omega)]
          exact hlow a (by omega) b (by omega) hab
      · intro a ha
        by_cases hai : a = i
        · subst hai
          exact ⟨Real.sqrt t, Real.sqrt_pos.mpr ht, upd2_same _ _ _ _⟩
        · rw [hne a a (by omega)]
          exact hchr.diag a (by omega)
      · intro a ha b hb
        by_cases hai : a = i
        · by_cases hbi : b = i
          · subst hai; subst hbi
            rw [Finset.sum_range_succ, hLn, upd2_same, Complex.conj_ofReal, ← Complex.ofReal_mul, Real.mul_self_sqrt ht.le, ← het]
            have : ∑ k ∈ Finset.range b, upd2 Lr b b ((Real.sqrt t : ℝ) : ℂ) b k * (starRingEnd ℂ) (upd2 Lr b b ((Real.sqrt t : ℝ) : ℂ) b k) =
                ∑ k ∈ Finset.range b, Lr b k * (starRingEnd ℂ) (Lr b k) := by
              refine Finset.sum_congr rfl fun k hk => ?_
              have := Finset.mem_range.mp hk
              rw [upd2_ne _ _ _ _ _ _ (by omega)]
            rw [this]; ring
          · subst hai
            rw [← heq b (by omega)]
            refine Finset.sum_congr rfl fun k hk => ?_
            have := Finset.mem_range.mp hk
            rw [hne a k (by omega), hne b k (by omega)]
        · rw [← hchr.eq a (by omega) b hb]
          refine Finset.sum_congr rfl fun k hk => ?_
          rw [hne a k (by omega), hne b k (by omega)]
    · refine ⟨fun _ _ _ => rfl, ?_⟩
      intro b hb
      rw [← hrow0 i hi2 hi1 b hb]
      refine Finset.sum_congr rfl fun k hk => ?_
      have := Finset.mem_range.mp hk
      rw [hunch i k (by omega), hunch b k (by omega)]
    · intro j Ls' hj1 hj2 ⟨hkeep, heq⟩
      simp only []
      have hdj : ∃ r : ℝ, 0 < r ∧ Ls' j j = r := by
        rw [hkeep j j (by omega)]
        exact hch.diag j hj2
      obtain ⟨r, hr, her⟩ := hdj
      have hr' : (r : ℂ) ≠ 0 := by exact_mod_cast hr.ne'
      refine ⟨?_, ?_⟩
      · intro a b h
        rw [upd2_ne _ _ _ _ _ _ (by omega)]
        exact hkeep a b (by omega)
      · intro b hb
        rw [forRange_addsum j fun k => Ls' i k * (starRingEnd ℂ) (Ls' j k)]
        by_cases hbj : b = j
        · subst hbj
          rw [Finset.sum_range_succ, upd2_same, upd2_ne _ _ _ _ b b (by omega), her, Complex.conj_ofReal]
          have : ∑ k ∈ Finset.range b, upd2 Ls' i b ((mat i b - ∑ k ∈ Finset.range b, Ls' i k * (starRingEnd ℂ) (Ls' b k)) / (r : ℂ)) i k *
              (starRingEnd ℂ) (upd2 Ls' i b ((mat i b - ∑ k ∈ Finset.range b, Ls' i k * (starRingEnd ℂ) (Ls' b k)) / (r : ℂ)) b k) =
              ∑ k ∈ Finset.range b, Ls' i k * (starRingEnd ℂ) (Ls' b k) := by
            refine Finset.sum_congr rfl fun k hk => ?_
            have := Finset.mem_range.mp hk
            rw [upd2_ne _ _ _ _ _ _ (by omega), upd2_ne _ _ _ _ _ _ (by omega)]
          rw [this]
          field_simp
          ring
        · rw [← heq b (by omega)]
          refine Finset.sum_congr rfl fun k hk => ?_
          have := Finset.mem_range.mp hk
          rw [upd2_ne _ _ _ _ _ _ (by omega), upd2_ne _ _ _ _ _ _ (by omega)]

/-- `quad_cholesky` turns the Cholesky factor of a matrix into the one of the matrix with two rows and columns removed. -/
theorem quadCholesky_correct (d len idx : ℕ) (M L mat : ℕ → ℕ → ℂ) (Z : List ℕ) (hL : IsChol d M L) (hidx : idx ≤ len)
    (hZ1 : ∀ a < idx, Z.getD a 0 = a) (hZd : ∀ a < len, Z.getD a 0 < d) (hZm : ∀ a < len, ∀ b < len, a < b → Z.getD a 0 < Z.getD b 0)
    (hmat : ∀ a < len, ∀ b < len, mat a b = M (Z.getD a 0) (Z.getD b 0)) (hpos : (toMatrix len len mat).PosDef) :
    IsChol len mat (quadCholesky L Z idx len mat) := by
  refine quadCholesky_core len idx L mat Z hidx ?_ ⟨?_, ?_, ?_⟩ ?_ hpos
  · intro a ha b hb hab
    exact hL.lower _ (hZd a ha) _ (hZd b hb) (hZm a ha b hb hab)
  · intro a ha b hb hab
    exact hL.lower _ (hZd a (by omega)) _ (hZd b (by omega)) (hZm a (by omega) b (by omega) hab)
  · intro a ha
    exact hL.diag _ (hZd a (by omega))
  · intro a ha b hb
    rw [hmat a (by omega) b (by omega)]
    have h := hL.eq a (by have := hZd a (by omega); rw [hZ1 a ha] at this; exact this) b hb
    rw [hZ1 a ha, hZ1 b (by omega), ← h]
    refine Finset.sum_congr rfl fun k hk => ?_
    have := Finset.mem_range.mp hk
    rw [hZ1 k (by omega)]
  · intro i hi2 hi1 b hb
    rw [hmat i hi2 b (by omega), ← hL.eq _ (hZd i hi2) (Z.getD b 0) (by rw [hZ1 b hb]; have := hZm b (by omega) i hi2 (by omega); rw [hZ1 b hb] at this; omega), hZ1 b hb]
    refine Finset.sum_congr rfl fun k hk => ?_
    have := Finset.mem_range.mp hk
    rw [hZ1 k (by omega)]

/-- started from scratch, the loops of `quad_cholesky` compute a Cholesky factor -/
theorem cholesky_exists (d : ℕ) (M : ℕ → ℕ → ℂ) (hpos : (toMatrix d d M).PosDef) : IsChol d M (quadCholesky (fun _ _ => 0) (List.range d) 0 d M) :=
  quadCholesky_core d 0 _ M _ (by omega) (fun _ _ _ _ _ => rfl)
    ⟨fun i hi => absurd hi (by omega), fun i hi => absurd hi (by omega), fun i hi => absurd hi (by omega)⟩ (fun _ _ _ b hb => absurd hb (by omega)) hpos

/-- the product of the factor with its adjoint -/
theorem IsChol.mul {d : ℕ} {M L : ℕ → ℕ → ℂ} (h : IsChol d M L) (hM : (toMatrix d d M).IsHermitian) :
    toMatrix d d L * (toMatrix d d L)ᴴ = toMatrix d d M := by
  have hherm : ∀ a < d, ∀ b < d, M a b = (starRingEnd ℂ) (M b a) := by
    intro a ha b hb
    have := congrFun (congrFun hM ⟨a, ha⟩) ⟨b, hb⟩
    simpa [toMatrix, conjTranspose_apply] using this.symm
  have hlow : ∀ a < d, ∀ b ≤ a, ∑ k ∈ Finset.range d, L a k * (starRingEnd ℂ) (L b k) = M a b := by
    intro a ha b hb
    rw [← h.eq a ha b hb]
    symm
    apply Finset.sum_subset (Finset.range_subset_range.mpr (by omega))
    intro k hk hk'
    have h1 := Finset.mem_range.mp hk
    have h2 : b < k := by
      by_contra h
      exact hk' (Finset.mem_range.mpr (by omega))
    rw [h.lower b (by omega) k h1 h2, map_zero, mul_zero]
  ext a b
  rw [Matrix.mul_apply]
  simp only [conjTranspose_apply, toMatrix, of_apply]
  have hsum : ∀ a b : ℕ, ∑ k : Fin d, L a k * star (L b k) = ∑ k ∈ Finset.range d, L a k * (starRingEnd ℂ) (L b k) := fun a b =>
    Fin.sum_univ_eq_sum_range (fun k => L a k * (starRingEnd ℂ) (L b k)) d
  rw [hsum]
  rcases le_total (b : ℕ) (a : ℕ) with hab | hab
  · exact hlow a a.2 b hab
  · have := hlow b b.2 a hab
    rw [hherm a a.2 b b.2, ← this, map_sum]
    refine Finset.sum_congr rfl fun k _ => ?_
    rw [map_mul, Complex.conj_conj, mul_comm]

theorem isChol_of_mul {d : ℕ} {M L : ℕ → ℕ → ℂ} (hl : ∀ i < d, ∀ j < d, i < j → L i j = 0) (hd : ∀ i < d, ∃ r : ℝ, 0 < r ∧ L i i = r)
    (hm : ∀ i < d, ∀ j < d, ∑ k : Fin d, L i k * (starRingEnd ℂ) (L j k) = M i j) : IsChol d M L := by
  refine ⟨hl, hd, fun a ha b hb => ?_⟩
  rw [← hm a ha b (by omega), Fin.sum_univ_eq_sum_range (fun k => L a k * (starRingEnd ℂ) (L b k)) d]
  apply Finset.sum_subset (Finset.range_subset_range.mpr (by omega))
  intro k hk hk'
  have h1 := Finset.mem_range.mp hk
  have h2 : b < k := by
    by_contra h
    exact hk' (Finset.mem_range.mpr (by omega))
  rw [hl b (by omega) k h1 h2, map_zero, mul_zero]

/-- the product of the diagonal is a positive number -/
theorem IsChol.diagProd {d : ℕ} {M L : ℕ → ℕ → ℂ} (h : IsChol d M L) :
    ∃ r : ℝ, 0 < r ∧ ((List.range d).map fun i => L i i).prod = r ∧ (toMatrix d d L).det = r := by
  choose f hf hfe using h.diag
  have e : ∀ i : Fin d, L i i = ((f i i.2 : ℝ) : ℂ) := fun i => hfe i i.2
  refine ⟨∏ i : Fin d, f i i.2, Finset.prod_pos fun i _ => hf i i.2, ?_, ?_⟩
  · rw [← List.prod_toFinset (fun i => L i i) (List.nodup_range (n := d)), List.toFinset_range]
    push_cast
    rw [← Fin.prod_univ_eq_prod_range]
    exact Finset.prod_congr rfl fun i _ => e i
  · rw [det_of_lowerTriangular]
    · push_cast
      exact Finset.prod_congr rfl fun i _ => e i
    · intro a b hab
      exact h.lower a a.2 b b.2 hab

theorem IsChol.det {d : ℕ} {M L : ℕ → ℕ → ℂ} (h : IsChol d M L) (hM : (toMatrix d d M).IsHermitian) :
    csqrt (sqDiag d L) = (Real.sqrt (toMatrix d d M).det.re : ℝ) := by
  obtain ⟨r, hr, e1, e2⟩ := h.diagProd
  rw [← h.mul hM, det_mul, det_conjTranspose, e2, sqDiag, e1]
  have : (r : ℂ) * star (r : ℂ) = ((r * r : ℝ) : ℂ) := by
    rw [Complex.ofReal_mul, ← starRingEnd_apply, Complex.conj_ofReal]
  rw [this, Complex.ofReal_re, sq, ← Complex.ofReal_mul, csqrt_ofReal _ (mul_self_nonneg r)]

/-- forward substitution solves the triangular system -/
theorem solveTriangular_correct (d : ℕ) (L : ℕ → ℕ → ℂ) (y : ℕ → ℂ) (hd : ∀ i < d, L i i ≠ 0) (hl : ∀ i < d, ∀ j < d, i < j → L i j = 0) :
    ∀ i < d, ∑ k ∈ Finset.range d, L i k * solveTriangular d L y k = y i := by
  have key := forRange_inv (fun j (x : ℕ → ℂ) =>
      (∀ i < d, ∑ k ∈ Finset.range (min j (i + 1)), L i k * x k + (if i < j then 0 else x i) = y i)) d y
    (fun j x =>
      if x j = 0 then x
      else
        let x := Function.update x j (x j / L j j)
        let temp := x j
        forRange2 (j + 1) d x fun i x => Function.update x i (x i - temp * L i j)) ?_ ?_
  · intro i hi
    have := key i hi
    rw [if_pos hi, add_zero, min_eq_right (by omega)] at this
    rw [← this]
    symm
    apply Finset.sum_subset (Finset.range_subset_range.mpr (by omega))
    intro k hk hk'
    have h1 := Finset.mem_range.mp hk
    have h2 : i < k := by
      by_contra h
      exact hk' (Finset.mem_range.mpr (by omega))
    rw [hl i hi k h1 h2, zero_mul]
  · intro i _
    simp
  · intro j x hj hx
    -- the value of the new vector
    have hnew : ∀ i, (if x j = 0 then x
        else
          let x := Function.update x j (x j / L j j)
          let temp := x j
          forRange2 (j + 1) d x fun i x => Function.update x i (x i - temp * L i j)) i =
        if i = j then x j / L j j else if j < i ∧ i < d then x i - x j / L j j * L i j else x i := by
      intro i
      by_cases h0 : x j = 0
      · rw [if_pos h0]
        by_cases hij : i = j
        · subst hij; rw [if_pos rfl, h0, zero_div]
        · rw [if_neg hij, h0]; simp
      · rw [if_neg h0]
        simp only [Function.update_self]
        have inner := forRange2_inv (fun m (x' : ℕ → ℂ) =>
            ∀ i, x' i = if i = j then x j / L j j else if j < i ∧ i < m then x i - x j / L j j * L i j else x i) (show j + 1 ≤ d by omega)
          (Function.update x j (x j / L j j)) (fun i x' => Function.update x' i (x' i - x j / L j j * L i j)) ?_ ?_
        · exact inner i
        · intro i
          by_cases hij : i = j
          · subst hij; simp
          · rw [Function.update_of_ne hij, if_neg hij, if_neg (by omega)]
        · intro m x' hm1 hm2 hx' i
          by_cases him : i = m
          · subst him
            rw [Function.update_self, hx' i, if_neg (by omega), if_neg (by omega), if_neg (by omega), if_pos ⟨by omega, by omega⟩]
          · rw [Function.update_of_ne him, hx' i]
            by_cases hij : i = j
            · rw [if_pos hij, if_pos hij]
            · rw [if_neg hij, if_neg hij]
              by_cases h : j < i ∧ i < m
              · rw [if_pos h, if_pos ⟨h.1, by omega⟩]
              · rw [if_neg h, if_neg (by omega)]
    intro i hi
    have hxi := hx i hi
    set x' := (if x j = 0 then x
        else
          let x := Function.update x j (x j / L j j)
          let temp := x j
          forRange2 (j + 1) d x fun i x => Function.update x i (x i - temp * L i j)) with hx'
    have hlo : ∀ k < j, x' k = x k := fun k hk => by rw [hnew k, if_neg (by omega), if_neg (by omega)]
    have hsum : ∑ k ∈ Finset.range (min j (i + 1)), L i k * x' k = ∑ k ∈ Finset.range (min j (i + 1)), L i k * x k := by
      refine Finset.sum_congr rfl fun k hk => ?_
      have := Finset.mem_range.mp hk
      rw [hlo k (by omega)]
    rcases Nat.lt_trichotomy i j with h | h | h
    · rw [min_eq_right (by omega)] at hxi hsum ⊢
      rw [if_pos (by omega)] at hxi ⊢
      rw [hsum, hxi]
    · subst h
      rw [min_eq_left (by omega)] at hxi hsum
      rw [if_neg (by omega)] at hxi
      rw [min_eq_right (by omega), if_pos (by omega), Finset.sum_range_succ, hsum, hnew i, if_pos rfl, mul_div_cancel₀ _ (hd i hi), add_zero, hxi]
    · rw [min_eq_left (by omega)] at hxi hsum ⊢
      rw [if_neg (by omega)] at hxi ⊢
      rw [Finset.sum_range_succ, hsum, hnew i, hnew j, if_pos rfl, if_neg (by omega), if_pos ⟨h, hi⟩, ← hxi]
      ring

/-- the quadratic form computed through the Cholesky factor -/
theorem IsChol.quad {d : ℕ} {M L : ℕ → ℕ → ℂ} (h : IsChol d M L) (hM : (toMatrix d d M).IsHermitian) (y : ℕ → ℂ) :
    normSq1 d (solveTriangular d L y) = (fun i : Fin d => (starRingEnd ℂ) (y i)) ⬝ᵥ (toMatrix d d M)⁻¹ *ᵥ (fun i : Fin d => y i) := by
  obtain ⟨r, hr, -, e2⟩ := h.diagProd
  have hu : IsUnit (toMatrix d d L).det := by
    rw [e2, isUnit_iff_ne_zero]
    exact_mod_cast hr.ne'
  have hdiag : ∀ i < d, L i i ≠ 0 := by
    intro i hi
    obtain ⟨r, hr, e⟩ := h.diag i hi
    rw [e]
    exact_mod_cast hr.ne'
  set x : Fin d → ℂ := fun i => solveTriangular d L y i with hx
  have hLx : toMatrix d d L *ᵥ x = fun i : Fin d => y i := by
    funext i
    have := solveTriangular_correct d L y hdiag h.lower i i.2
    rw [← this, ← Fin.sum_univ_eq_sum_range fun k => L i k * solveTriangular d L y k]
    rfl
  have hstar : (fun i : Fin d => (starRingEnd ℂ) (y i)) = star x ᵥ* (toMatrix d d L)ᴴ := by
    rw [← star_mulVec, hLx]
    rfl
  rw [hstar, ← hLx, ← h.mul hM, Matrix.mul_inv_rev, Matrix.mulVec_mulVec, Matrix.mul_assoc, Matrix.nonsing_inv_mul _ hu, Matrix.mul_one]
  rw [← Matrix.dotProduct_mulVec, Matrix.mulVec_mulVec, Matrix.mul_nonsing_inv _ (by rw [det_conjTranspose]; exact hu.star), Matrix.one_mulVec]
  unfold normSq1
  rw [dot_eq]
  rfl

end Verif.Lemmas.Chol
