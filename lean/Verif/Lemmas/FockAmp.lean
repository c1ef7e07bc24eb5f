/- Recurrences and derivatives of the amplitudes of Gaussian gates. -/
import Verif.Spec.FockGates
import Verif.Props.Hermite
import Mathlib.Tactic.NoncommRing
import Mathlib.Analysis.Calculus.Deriv.Mul
import Mathlib.Analysis.Calculus.Deriv.Add

set_option linter.unusedSectionVars false
set_option linter.unusedSimpArgs false

namespace Verif.Lemmas
open Verif Verif.Model Verif.Spec Verif.Props

variable {d : ℕ}

/-- array of a matrix -/
noncomputable def arrOf (R : Matrix (Fin d) (Fin d) ℂ) : ℕ → ℕ → ℂ := fun i j => if h : i < d ∧ j < d then R ⟨i, h.1⟩ ⟨j, h.2⟩ else 0

noncomputable def vecOf (y : Fin d → ℂ) : ℕ → ℂ := fun i => if h : i < d then y ⟨i, h⟩ else 0

/-- the loop hafnian of the repeated matrix -/
noncomputable def gfun (R : Matrix (Fin d) (Fin d) ℂ) (y : Fin d → ℂ) (k : Fin d → ℕ) : ℂ := lh (vecOf y) (arrOf R) (repeatedIndices (List.ofFn k))

theorem gfun_herm (R : Matrix (Fin d) (Fin d) ℂ) (y : Fin d → ℂ) (k : Fin d → ℕ) :
    gfun R y k = herm (fun i j => -arrOf R i j) (vecOf y) (List.ofFn k) := by
  unfold gfun herm; simp

theorem fockAmp_eq (c : ℂ) (R : Matrix (Fin d) (Fin d) ℂ) (y : Fin d → ℂ) (k : Fin d → ℕ) :
    fockAmp c R y k = c * gfun R y k / ((sqrtFact k : ℝ) : ℂ) := by
  unfold fockAmp gfun sqrtFact
  rw [spec_lhaf_repeated]
  rfl

theorem gfun_zero (R : Matrix (Fin d) (Fin d) ℂ) (y : Fin d → ℂ) : gfun R y 0 = 1 := by
  rw [gfun_herm, ofFn_zero, herm_zero]

theorem gfun_succ (R : Matrix (Fin d) (Fin d) ℂ) (hR : R.IsSymm) (y : Fin d → ℂ) (k : Fin d → ℕ) (i : Fin d) :
    gfun R y (k + Pi.single i 1) = y i * gfun R y k + ∑ j, R i j * ((k j : ℂ) * gfun R y (k - Pi.single j 1)) := by
  rw [gfun_herm, herm_pivot (n := d) _ _ _ k i, sub_eq_add_neg, ← Finset.sum_neg_distrib]
  · congr 1
    · rw [gfun_herm]; simp [vecOf]
    · refine Finset.sum_congr rfl fun j _ => ?_
      rw [gfun_herm]; simp [arrOf]; ring
  · intro a ha b hb
    have := hR.apply ⟨a, ha⟩ ⟨b, hb⟩
    simp [arrOf, ha, hb, this]

/-! ### the algebra of lowering and shift operators -/

/-- functions of the photon numbers -/
abbrev Amps (d : ℕ) := (Fin d → ℕ) → ℂ

/-- `F ↦ k_i F(k - e_i)` -/
noncomputable def lower (i : Fin d) : Module.End ℂ (Amps d) where
  toFun F k := (k i : ℂ) * F (k - Pi.single i 1)
  map_add' F G := by funext k; simp [mul_add]
  map_smul' t F := by funext k; simp; ring

/-- `F ↦ F(k + e_i)` -/
noncomputable def shift (i : Fin d) : Module.End ℂ (Amps d) where
  toFun F k := F (k + Pi.single i 1)
  map_add' F G := rfl
  map_smul' t F := rfl

theorem shift_lower (l i : Fin d) : shift l * lower i = lower i * shift l + if i = l then (1 : Module.End ℂ (Amps d)) else 0 := by
  apply LinearMap.ext; intro F; funext k
  simp only [Module.End.mul_apply, shift, lower, LinearMap.coe_mk, AddHom.coe_mk, LinearMap.add_apply, Pi.add_apply]
  by_cases h : i = l
  · subst h
    simp only [if_true, Module.End.one_apply, Pi.single_eq_same]
    have e1 : k + Pi.single i 1 - Pi.single i 1 = k := by funext x; simp
    by_cases h0 : k i = 0
    · simp [h0, e1]
    · have e2 : k - Pi.single i 1 + Pi.single i 1 = k := by
        funext x
        by_cases hx : x = i
        · subst hx; simp; omega
        · simp [hx]
      rw [e1, e2]; push_cast; ring
  · have hne : l ≠ i := fun e => h e.symm
    simp only [h, if_false, LinearMap.zero_apply, Pi.zero_apply, add_zero, Pi.single_apply, hne.symm]
    by_cases h0 : k i = 0
    · simp [h0]
    · congr 2
      funext x
      by_cases hx : x = i
      · subst hx; simp [hne.symm, h]
      · simp [hx]

theorem lower_comm (i j : Fin d) : lower i * lower j = lower j * lower i := by
  apply LinearMap.ext; intro F; funext k
  simp only [Module.End.mul_apply, lower, LinearMap.coe_mk, AddHom.coe_mk, Pi.sub_apply, Pi.single_apply]
  by_cases h : i = j
  · subst h; rfl
  · have h' : j ≠ i := fun e => h e.symm
    simp only [h, h', if_false, Nat.sub_zero]
    rw [show k - Pi.single i 1 - Pi.single j 1 = k - Pi.single j 1 - Pi.single i 1 by funext x; simp; omega]
    ring

/-- the recursion in operator form -/
theorem shift_gfun (R : Matrix (Fin d) (Fin d) ℂ) (hR : R.IsSymm) (y : Fin d → ℂ) (l : Fin d) :
    shift l (gfun R y) = y l • gfun R y + ∑ j, R l j • lower j (gfun R y) := by
  funext k
  simp only [shift, lower, LinearMap.coe_mk, AddHom.coe_mk, Pi.add_apply, Pi.smul_apply, smul_eq_mul, Finset.sum_apply]
  exact gfun_succ R hR y k l

/-- the operator of the derivative -/
noncomputable def derivOp (R' : Matrix (Fin d) (Fin d) ℂ) (y' : Fin d → ℂ) : Module.End ℂ (Amps d) :=
  ∑ i, y' i • lower i + (1 / 2 : ℂ) • ∑ i, ∑ j, R' i j • (lower i * lower j)

theorem derivOp_lower (R' : Matrix (Fin d) (Fin d) ℂ) (y' : Fin d → ℂ) (i : Fin d) : derivOp R' y' * lower i = lower i * derivOp R' y' := by
  unfold derivOp
  simp only [add_mul, mul_add, Finset.sum_mul, Finset.mul_sum, smul_mul_assoc, mul_smul_comm]
  congr 1
  · exact Finset.sum_congr rfl fun j _ => by rw [lower_comm]
  · congr 1
    refine Finset.sum_congr rfl fun a _ => Finset.sum_congr rfl fun b _ => ?_
    rw [mul_assoc, lower_comm b i, ← mul_assoc, lower_comm a i, mul_assoc]

theorem shift_derivOp (R' : Matrix (Fin d) (Fin d) ℂ) (hR' : R'.IsSymm) (y' : Fin d → ℂ) (l : Fin d) :
    shift l * derivOp R' y' = derivOp R' y' * shift l + y' l • (1 : Module.End ℂ (Amps d)) + ∑ j, R' l j • lower j := by
  unfold derivOp
  have h2 : ∀ i j, shift l * (lower i * lower j) = lower i * lower j * shift l + (if j = l then lower i else 0) + (if i = l then lower j else 0) := by
    intro i j
    rw [← mul_assoc, shift_lower, add_mul, mul_assoc, shift_lower, mul_add, ← mul_assoc]
    congr 1
    · congr 1
      split_ifs <;> simp
    · split_ifs <;> simp
  simp only [add_mul, mul_add, Finset.sum_mul, Finset.mul_sum, smul_mul_assoc, mul_smul_comm, shift_lower, h2, smul_add, Finset.sum_add_distrib]
  have a1 : ∑ i, y' i • (if i = l then (1 : Module.End ℂ (Amps d)) else 0) = y' l • 1 := by simp [Finset.sum_ite_eq']
  have a2 : ∑ i, ∑ j, R' i j • (if j = l then lower i else (0 : Module.End ℂ (Amps d))) = ∑ j, R' l j • lower j := by
    refine Finset.sum_congr rfl fun i _ => ?_
    simp [hR'.apply l i]
  have a3 : ∑ i, ∑ j, R' i j • (if i = l then lower j else (0 : Module.End ℂ (Amps d))) = ∑ j, R' l j • lower j := by
    rw [Finset.sum_comm]
    refine Finset.sum_congr rfl fun j _ => ?_
    simp
  rw [a1, a2, a3]
  have a4 : (1 / 2 : ℂ) • (∑ j, R' l j • lower j) + (1 / 2 : ℂ) • (∑ j, R' l j • lower j) = ∑ j, R' l j • (lower j : Module.End ℂ (Amps d)) := by
    rw [← add_smul]; norm_num
  conv_rhs => rw [← a4]
  abel

theorem hasDerivAt_gfun (R : ℝ → Matrix (Fin d) (Fin d) ℂ) (hR : ∀ t, (R t).IsSymm) (y : ℝ → Fin d → ℂ) (R' : Matrix (Fin d) (Fin d) ℂ) (hR' : R'.IsSymm)
    (y' : Fin d → ℂ) (t : ℝ) (h1 : ∀ i j, HasDerivAt (fun s => R s i j) (R' i j) t) (h2 : ∀ i, HasDerivAt (fun s => y s i) (y' i) t) (k : Fin d → ℕ) :
    HasDerivAt (fun s => gfun (R s) (y s) k) (derivOp R' y' (gfun (R t) (y t)) k) t := by
  induction hn : ∑ i, k i using Nat.strong_induction_on generalizing k with
  | _ n ih =>
    by_cases hk : k = 0
    · subst hk
      simp only [gfun_zero]
      have : derivOp R' y' (gfun (R t) (y t)) 0 = 0 := by
        simp [derivOp, lower]
      rw [this]
      exact hasDerivAt_const t 1
    · obtain ⟨l, hl⟩ : ∃ l, k l ≠ 0 := by
        by_contra h; push Not at h; exact hk (funext h)
      obtain ⟨k', rfl⟩ : ∃ k', k = k' + Pi.single l 1 := ⟨k - Pi.single l 1, by
        funext x
        by_cases hx : x = l
        · subst hx; simp; omega
        · simp [hx]⟩
      have hsum : ∑ i, (k' + Pi.single l 1 : Fin d → ℕ) i = ∑ i, k' i + 1 := by
        simp [Finset.sum_add_distrib]
      have hsub : ∀ j, k' j ≠ 0 → ∑ i, (k' - Pi.single j 1 : Fin d → ℕ) i < n := by
        intro j _
        have : ∑ i, (k' - Pi.single j 1 : Fin d → ℕ) i ≤ ∑ i, k' i := Finset.sum_le_sum fun i _ => Nat.sub_le _ _
        omega
      have e : ∀ s, gfun (R s) (y s) (k' + Pi.single l 1) = y s l * gfun (R s) (y s) k' + ∑ j, R s l j * ((k' j : ℂ) * gfun (R s) (y s) (k' - Pi.single j 1)) :=
        fun s => gfun_succ (R s) (hR s) (y s) k' l
      simp only [e]
      have d1 := (h2 l).fun_mul (ih _ (by omega) k' rfl)
      have d2 : ∀ j, HasDerivAt (fun s => R s l j * ((k' j : ℂ) * gfun (R s) (y s) (k' - Pi.single j 1)))
          (R' l j * ((k' j : ℂ) * gfun (R t) (y t) (k' - Pi.single j 1)) + R t l j * ((k' j : ℂ) * derivOp R' y' (gfun (R t) (y t)) (k' - Pi.single j 1))) t := by
        intro j
        by_cases hj : k' j = 0
        · simp only [hj, Nat.cast_zero, zero_mul, mul_zero, add_zero]
          exact hasDerivAt_const t 0
        · exact (h1 l j).fun_mul ((ih _ (hsub j hj) _ rfl).const_mul _)
      have d3 := d1.fun_add (HasDerivAt.fun_sum fun j (_ : j ∈ Finset.univ) => d2 j)
      refine d3.congr_deriv ?_
      have hs := LinearMap.congr_fun (shift_derivOp R' hR' y' l) (gfun (R t) (y t))
      have hs' := congrFun hs k'
      simp only [Module.End.mul_apply, LinearMap.add_apply, shift_gfun (R t) (hR t) (y t) l, map_add, map_smul, map_sum, LinearMap.smul_apply, LinearMap.sum_apply] at hs'
      have hc : ∀ j, derivOp R' y' (lower j (gfun (R t) (y t))) = lower j (derivOp R' y' (gfun (R t) (y t))) := fun j => by
        rw [← Module.End.mul_apply, derivOp_lower, Module.End.mul_apply]
      simp only [hc] at hs'
      have hl : derivOp R' y' (gfun (R t) (y t)) (k' + Pi.single l 1) = shift l (derivOp R' y' (gfun (R t) (y t))) k' := rfl
      rw [hl, hs']
      simp only [Pi.add_apply, Pi.smul_apply, Finset.sum_apply, smul_eq_mul, Module.End.one_apply, Finset.sum_add_distrib, lower, LinearMap.coe_mk, AddHom.coe_mk]
      ring

/-! ### normalised amplitudes -/


@[simp] theorem root_zero : root 0 = 0 := by simp [root]

theorem root_sq (n : ℕ) : root n * root n = n := by
  unfold root; rw [← Complex.ofReal_mul, Real.mul_self_sqrt (Nat.cast_nonneg n)]; simp

theorem root_ne {n : ℕ} (h : 0 < n) : root n ≠ 0 := by
  unfold root
  rw [Ne, Complex.ofReal_eq_zero, Real.sqrt_eq_zero (Nat.cast_nonneg n)]
  exact_mod_cast h.ne'

theorem sqrtFact_add (k : Fin d → ℕ) (i : Fin d) : ((sqrtFact (k + Pi.single i 1) : ℝ) : ℂ) = root (k i + 1) * ((sqrtFact k : ℝ) : ℂ) := by
  unfold sqrtFact root
  rw [← Complex.ofReal_mul, ← Real.sqrt_mul (Nat.cast_nonneg _)]
  congr 2
  rw [← Finset.mul_prod_erase _ _ (Finset.mem_univ i), ← Finset.mul_prod_erase _ (fun x => ((k x).factorial : ℝ)) (Finset.mem_univ i), ← mul_assoc]
  congr 1
  · simp [Nat.factorial_succ]
  · refine Finset.prod_congr rfl fun j hj => ?_
    simp [Finset.ne_of_mem_erase hj]

theorem sub_add_single (k : Fin d → ℕ) (i : Fin d) (h : k i ≠ 0) : k - Pi.single i 1 + Pi.single i 1 = k := by
  funext x
  by_cases hx : x = i
  · subst hx; simp; omega
  · simp [hx]

theorem sqrtFact_ne (k : Fin d → ℕ) : ((sqrtFact k : ℝ) : ℂ) ≠ 0 := by
  unfold sqrtFact
  rw [Ne, Complex.ofReal_eq_zero, Real.sqrt_eq_zero']
  push Not
  exact Finset.prod_pos fun i _ => by exact_mod_cast Nat.factorial_pos _

/-- lowering of normalised amplitudes -/
theorem lower_norm (F : Amps d) (k : Fin d → ℕ) (i : Fin d) :
    lower i F k / ((sqrtFact k : ℝ) : ℂ) = root (k i) * (F (k - Pi.single i 1) / ((sqrtFact (k - Pi.single i 1) : ℝ) : ℂ)) := by
  simp only [lower, LinearMap.coe_mk, AddHom.coe_mk]
  by_cases h : k i = 0
  · simp [h]
  · have e := sqrtFact_add (k - Pi.single i 1) i
    rw [sub_add_single k i h] at e
    have e2 : (k - Pi.single i 1 : Fin d → ℕ) i + 1 = k i := by simp; omega
    rw [e2] at e
    have := root_ne (Nat.pos_of_ne_zero h)
    have := sqrtFact_ne (k - Pi.single i 1)
    rw [e, ← root_sq]
    field_simp

/-- the amplitude of the vacuum -/
theorem fockAmp_zero (c : ℂ) (R : Matrix (Fin d) (Fin d) ℂ) (y : Fin d → ℂ) : fockAmp c R y 0 = c := by
  rw [fockAmp_eq, gfun_zero]; simp [sqrtFact]

/-- The recursion of the amplitudes. -/
theorem fockAmp_succ (c : ℂ) (R : Matrix (Fin d) (Fin d) ℂ) (hR : R.IsSymm) (y : Fin d → ℂ) (k : Fin d → ℕ) (i : Fin d) :
    root (k i + 1) * fockAmp c R y (k + Pi.single i 1) = y i * fockAmp c R y k + ∑ j, R i j * (root (k j) * fockAmp c R y (k - Pi.single j 1)) := by
  have e : ∀ j, root (k j) * fockAmp c R y (k - Pi.single j 1) = c * (lower j (gfun R y) k / ((sqrtFact k : ℝ) : ℂ)) := by
    intro j; rw [lower_norm, fockAmp_eq]; ring
  simp only [e]
  rw [fockAmp_eq, fockAmp_eq, gfun_succ R hR, sqrtFact_add]
  have h1 := root_ne (Nat.succ_pos (k i))
  have h2 := sqrtFact_ne k
  have e3 : ∑ j, R i j * (c * (lower j (gfun R y) k / ((sqrtFact k : ℝ) : ℂ))) = c * (∑ j, R i j * ((k j : ℂ) * gfun R y (k - Pi.single j 1))) / ((sqrtFact k : ℝ) : ℂ) := by
    rw [Finset.mul_sum, Finset.sum_div]
    refine Finset.sum_congr rfl fun j _ => ?_
    simp only [lower, LinearMap.coe_mk, AddHom.coe_mk]; ring
  rw [e3]
  field_simp

/-- The derivative of the amplitudes along a curve of gates. -/
theorem hasDerivAt_fockAmp (c : ℝ → ℂ) (R : ℝ → Matrix (Fin d) (Fin d) ℂ) (hR : ∀ t, (R t).IsSymm) (y : ℝ → Fin d → ℂ) (c' l : ℂ) (R' : Matrix (Fin d) (Fin d) ℂ)
    (hR' : R'.IsSymm) (y' : Fin d → ℂ) (t : ℝ) (h0 : HasDerivAt c c' t) (hl : c' = l * c t) (h1 : ∀ i j, HasDerivAt (fun s => R s i j) (R' i j) t)
    (h2 : ∀ i, HasDerivAt (fun s => y s i) (y' i) t) (k : Fin d → ℕ) :
    HasDerivAt (fun s => fockAmp (c s) (R s) (y s) k)
      (l * fockAmp (c t) (R t) (y t) k + ∑ i, y' i * (root (k i) * fockAmp (c t) (R t) (y t) (k - Pi.single i 1)) +
        1 / 2 * ∑ i, ∑ j, R' i j * (root (k i) * (root ((k - Pi.single i 1 : Fin d → ℕ) j) * fockAmp (c t) (R t) (y t) (k - Pi.single i 1 - Pi.single j 1)))) t := by
  have dd := ((h0.fun_mul (hasDerivAt_gfun R hR y R' hR' y' t h1 h2 k)).div_const ((sqrtFact k : ℝ) : ℂ))
  simp only [fockAmp_eq]
  refine dd.congr_deriv ?_
  have e1 : ∀ F : Amps d, ∀ k i, root (k i) * (F (k - Pi.single i 1) / ((sqrtFact (k - Pi.single i 1) : ℝ) : ℂ)) = lower i F k / ((sqrtFact k : ℝ) : ℂ) :=
    fun F k i => (lower_norm F k i).symm
  simp only [mul_div_assoc, mul_left_comm (root _) (c t), e1]
  have e2 : ∀ i j, root (k i) * (lower j (gfun (R t) (y t)) (k - Pi.single i 1) / ((sqrtFact (k - Pi.single i 1) : ℝ) : ℂ)) =
      lower i (lower j (gfun (R t) (y t))) k / ((sqrtFact k : ℝ) : ℂ) := fun i j => e1 _ k i
  simp only [e2, derivOp, LinearMap.add_apply, LinearMap.sum_apply, LinearMap.smul_apply, Pi.add_apply, Finset.sum_apply, Pi.smul_apply, smul_eq_mul,
    Module.End.mul_apply, hl]
  rw [add_div, mul_add, add_div, ← add_assoc]
  congr 1
  · congr 1
    · ring
    · rw [Finset.mul_sum, Finset.sum_div]
      exact Finset.sum_congr rfl fun i _ => by ring
  · rw [mul_left_comm, mul_div_assoc]
    congr 1
    rw [Finset.mul_sum, Finset.sum_div]
    refine Finset.sum_congr rfl fun i _ => ?_
    rw [Finset.mul_sum, Finset.sum_div]
    exact Finset.sum_congr rfl fun j _ => by ring

/-- Selection rule: weights of the indices that the matrix and the vector conserve. -/
theorem fockAmp_selection {W : Type} [AddCommGroup W] (c : ℂ) (R : Matrix (Fin d) (Fin d) ℂ) (hR : R.IsSymm) (y : Fin d → ℂ) (w : Fin d → W)
    (h1 : ∀ i j, R i j ≠ 0 → w i + w j = 0) (h2 : ∀ i, y i ≠ 0 → w i = 0) (k : Fin d → ℕ) (hk : ∑ i, k i • w i ≠ 0) : fockAmp c R y k = 0 := by
  have key : gfun R y k = 0 := by
    induction hn : ∑ i, k i using Nat.strong_induction_on generalizing k with
    | _ n ih =>
      by_cases hk0 : k = 0
      · subst hk0; simp at hk
      · obtain ⟨l, hl⟩ : ∃ l, k l ≠ 0 := by
          by_contra h; push Not at h; exact hk0 (funext h)
        obtain ⟨k', rfl⟩ : ∃ k', k = k' + Pi.single l 1 := ⟨k - Pi.single l 1, (sub_add_single k l hl).symm⟩
        have hsum : ∑ i, (k' + Pi.single l 1 : Fin d → ℕ) i = ∑ i, k' i + 1 := by simp [Finset.sum_add_distrib]
        have hw : ∀ (q : Fin d → ℕ) x, ∑ i, (q + Pi.single x 1 : Fin d → ℕ) i • w i = ∑ i, q i • w i + w x := by
          intro q x
          simp [Finset.sum_add_distrib, add_smul, Pi.single_apply, ite_smul]
        rw [hw] at hk
        rw [gfun_succ R hR]
        have a1 : y l * gfun R y k' = 0 := by
          by_cases hy : y l = 0
          · simp [hy]
          · rw [ih _ (by omega) k' (by rw [h2 l hy, add_zero] at hk; exact hk) rfl, mul_zero]
        rw [a1, zero_add]
        refine Finset.sum_eq_zero fun j _ => ?_
        by_cases hr : R l j = 0
        · simp [hr]
        · by_cases hj : k' j = 0
          · simp [hj]
          · have hs : ∑ i, (k' - Pi.single j 1 : Fin d → ℕ) i ≤ ∑ i, k' i := Finset.sum_le_sum fun i _ => Nat.sub_le _ _
            rw [ih _ (by omega) (k' - Pi.single j 1) ?_ rfl]
            · simp
            · intro h
              apply hk
              rw [← sub_add_single k' j hj, hw, h, zero_add, add_comm]
              exact h1 l j hr
  rw [fockAmp_eq, key]; simp

/-! ### two and four indices -/

theorem fockAmp2_zero (c : ℂ) (R : Matrix (Fin 2) (Fin 2) ℂ) (y : Fin 2 → ℂ) : fockAmp c R y ![0, 0] = c := by
  rw [show (![0, 0] : Fin 2 → ℕ) = 0 by funext i; fin_cases i <;> rfl, fockAmp_zero]

theorem fockAmp4_zero (c : ℂ) (R : Matrix (Fin 4) (Fin 4) ℂ) (y : Fin 4 → ℂ) : fockAmp c R y ![0, 0, 0, 0] = c := by
  rw [show (![0, 0, 0, 0] : Fin 4 → ℕ) = 0 by funext i; fin_cases i <;> rfl, fockAmp_zero]

theorem v2_add (m n a b : ℕ) : (![m, n] : Fin 2 → ℕ) + ![a, b] = ![m + a, n + b] := by funext i; fin_cases i <;> rfl
theorem v2_sub (m n a b : ℕ) : (![m, n] : Fin 2 → ℕ) - ![a, b] = ![m - a, n - b] := by funext i; fin_cases i <;> rfl
theorem v4_add (m n p q a b c e : ℕ) : (![m, n, p, q] : Fin 4 → ℕ) + ![a, b, c, e] = ![m + a, n + b, p + c, q + e] := by funext i; fin_cases i <;> rfl
theorem v4_sub (m n p q a b c e : ℕ) : (![m, n, p, q] : Fin 4 → ℕ) - ![a, b, c, e] = ![m - a, n - b, p - c, q - e] := by funext i; fin_cases i <;> rfl
theorem s2_0 : (Pi.single 0 1 : Fin 2 → ℕ) = ![1, 0] := by decide
theorem s2_1 : (Pi.single 1 1 : Fin 2 → ℕ) = ![0, 1] := by decide
theorem s4_0 : (Pi.single 0 1 : Fin 4 → ℕ) = ![1, 0, 0, 0] := by decide
theorem s4_1 : (Pi.single 1 1 : Fin 4 → ℕ) = ![0, 1, 0, 0] := by decide
theorem s4_2 : (Pi.single 2 1 : Fin 4 → ℕ) = ![0, 0, 1, 0] := by decide
theorem s4_3 : (Pi.single 3 1 : Fin 4 → ℕ) = ![0, 0, 0, 1] := by decide

variable (c : ℂ)

theorem fockAmp2_m (R : Matrix (Fin 2) (Fin 2) ℂ) (hR : R.IsSymm) (y : Fin 2 → ℂ) (m n : ℕ) :
    root (m + 1) * fockAmp c R y ![m + 1, n] = y 0 * fockAmp c R y ![m, n] + (R 0 0 * (root m * fockAmp c R y ![m - 1, n]) + R 0 1 * (root n * fockAmp c R y ![m, n - 1])) := by
  have := fockAmp_succ c R hR y ![m, n] 0
  simpa only [s2_0, s2_1, v2_add, v2_sub, Fin.sum_univ_two, Matrix.cons_val_zero, Matrix.cons_val_one, Nat.sub_zero, Nat.add_zero] using this

theorem fockAmp2_n (R : Matrix (Fin 2) (Fin 2) ℂ) (hR : R.IsSymm) (y : Fin 2 → ℂ) (m n : ℕ) :
    root (n + 1) * fockAmp c R y ![m, n + 1] = y 1 * fockAmp c R y ![m, n] + (R 1 0 * (root m * fockAmp c R y ![m - 1, n]) + R 1 1 * (root n * fockAmp c R y ![m, n - 1])) := by
  have := fockAmp_succ c R hR y ![m, n] 1
  simpa only [s2_0, s2_1, v2_add, v2_sub, Fin.sum_univ_two, Matrix.cons_val_zero, Matrix.cons_val_one, Nat.sub_zero, Nat.add_zero] using this

/-- the four amplitudes with one photon less -/
noncomputable def row4 (c : ℂ) (R : Matrix (Fin 4) (Fin 4) ℂ) (i : Fin 4) (m n p q : ℕ) : ℂ :=
  R i 0 * (root m * fockAmp c R 0 ![m - 1, n, p, q]) + R i 1 * (root n * fockAmp c R 0 ![m, n - 1, p, q]) +
    R i 2 * (root p * fockAmp c R 0 ![m, n, p - 1, q]) + R i 3 * (root q * fockAmp c R 0 ![m, n, p, q - 1])

theorem fockAmp4_m (R : Matrix (Fin 4) (Fin 4) ℂ) (hR : R.IsSymm) (m n p q : ℕ) :
    root (m + 1) * fockAmp c R 0 ![m + 1, n, p, q] = row4 c R 0 m n p q := by
  have := fockAmp_succ c R hR 0 ![m, n, p, q] 0
  simpa [s4_0, s4_1, s4_2, s4_3, v4_add, v4_sub, Fin.sum_univ_four, row4] using this

theorem fockAmp4_n (R : Matrix (Fin 4) (Fin 4) ℂ) (hR : R.IsSymm) (m n p q : ℕ) :
    root (n + 1) * fockAmp c R 0 ![m, n + 1, p, q] = row4 c R 1 m n p q := by
  have := fockAmp_succ c R hR 0 ![m, n, p, q] 1
  simpa [s4_0, s4_1, s4_2, s4_3, v4_add, v4_sub, Fin.sum_univ_four, row4] using this

theorem fockAmp4_p (R : Matrix (Fin 4) (Fin 4) ℂ) (hR : R.IsSymm) (m n p q : ℕ) :
    root (p + 1) * fockAmp c R 0 ![m, n, p + 1, q] = row4 c R 2 m n p q := by
  have := fockAmp_succ c R hR 0 ![m, n, p, q] 2
  simpa [s4_0, s4_1, s4_2, s4_3, v4_add, v4_sub, Fin.sum_univ_four, row4] using this

theorem fockAmp4_q (R : Matrix (Fin 4) (Fin 4) ℂ) (hR : R.IsSymm) (m n p q : ℕ) :
    root (q + 1) * fockAmp c R 0 ![m, n, p, q + 1] = row4 c R 3 m n p q := by
  have := fockAmp_succ c R hR 0 ![m, n, p, q] 3
  simpa [s4_0, s4_1, s4_2, s4_3, v4_add, v4_sub, Fin.sum_univ_four, row4] using this

theorem fockAmp2_deriv (c : ℝ → ℂ) (R : ℝ → Matrix (Fin 2) (Fin 2) ℂ) (hR : ∀ t, (R t).IsSymm) (y : ℝ → Fin 2 → ℂ) (c' l : ℂ) (R' : Matrix (Fin 2) (Fin 2) ℂ)
    (hR' : R'.IsSymm) (y' : Fin 2 → ℂ) (t : ℝ) (h0 : HasDerivAt c c' t) (hl : c' = l * c t) (h1 : ∀ i j, HasDerivAt (fun s => R s i j) (R' i j) t)
    (h2 : ∀ i, HasDerivAt (fun s => y s i) (y' i) t) (m n : ℕ) :
    HasDerivAt (fun s => fockAmp (c s) (R s) (y s) ![m, n])
      (l * fockAmp (c t) (R t) (y t) ![m, n] + (y' 0 * (root m * fockAmp (c t) (R t) (y t) ![m - 1, n]) + y' 1 * (root n * fockAmp (c t) (R t) (y t) ![m, n - 1])) +
        (R' 0 0 * (root m * (root (m - 1) * fockAmp (c t) (R t) (y t) ![m - 2, n])) / 2 + R' 0 1 * (root m * (root n * fockAmp (c t) (R t) (y t) ![m - 1, n - 1])) +
          R' 1 1 * (root n * (root (n - 1) * fockAmp (c t) (R t) (y t) ![m, n - 2])) / 2)) t := by
  refine (hasDerivAt_fockAmp c R hR y c' l R' hR' y' t h0 hl h1 h2 ![m, n]).congr_deriv ?_
  simp only [s2_0, s2_1, v2_add, v2_sub, Fin.sum_univ_two, Matrix.cons_val_zero, Matrix.cons_val_one, Nat.sub_zero, Nat.add_zero, hR'.apply 0 1, Nat.sub_sub, Nat.reduceAdd]
  ring

theorem fockAmp4_deriv (c : ℝ → ℂ) (R : ℝ → Matrix (Fin 4) (Fin 4) ℂ) (hR : ∀ t, (R t).IsSymm) (c' l : ℂ) (R' : Matrix (Fin 4) (Fin 4) ℂ)
    (hR' : R'.IsSymm) (t : ℝ) (h0 : HasDerivAt c c' t) (hl : c' = l * c t) (h1 : ∀ i j, HasDerivAt (fun s => R s i j) (R' i j) t)
    (hd : ∀ i, R' i i = 0) (m n p q : ℕ) :
    HasDerivAt (fun s => fockAmp (c s) (R s) 0 ![m, n, p, q])
      (l * fockAmp (c t) (R t) 0 ![m, n, p, q] +
        (R' 0 1 * (root m * (root n * fockAmp (c t) (R t) 0 ![m - 1, n - 1, p, q])) + R' 0 2 * (root m * (root p * fockAmp (c t) (R t) 0 ![m - 1, n, p - 1, q])) +
          R' 0 3 * (root m * (root q * fockAmp (c t) (R t) 0 ![m - 1, n, p, q - 1])) + R' 1 2 * (root n * (root p * fockAmp (c t) (R t) 0 ![m, n - 1, p - 1, q])) +
          R' 1 3 * (root n * (root q * fockAmp (c t) (R t) 0 ![m, n - 1, p, q - 1])) + R' 2 3 * (root p * (root q * fockAmp (c t) (R t) 0 ![m, n, p - 1, q - 1])))) t := by
  refine (hasDerivAt_fockAmp c R hR (fun _ => 0) c' l R' hR' 0 t h0 hl h1 (fun i => hasDerivAt_const t 0) ![m, n, p, q]).congr_deriv ?_
  have e10 := hR'.apply 0 1
  have e20 := hR'.apply 0 2
  have e30 := hR'.apply 0 3
  have e21 := hR'.apply 1 2
  have e31 := hR'.apply 1 3
  have e32 := hR'.apply 2 3
  simp [s4_0, s4_1, s4_2, s4_3, v4_add, v4_sub, Fin.sum_univ_four, hd, e10, e20, e30, e21, e31, e32]
  ring

end Verif.Lemmas
