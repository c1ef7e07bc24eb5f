/-
C78: `fock_tensor` returns the matrix elements of the Gaussian unitary in the Fock basis.
-/
import Verif.Lemmas.ChoiTensor
import Verif.Props.SymplecticStates

set_option linter.unusedSectionVars false
set_option linter.unusedSimpArgs false

namespace Verif.Props
open Verif.Model Verif.Model.Symp Verif.Model.Conv Verif.Model.Fock Verif.Spec Verif.Lemmas Verif.Lemmas.Symp Verif.Lemmas.Heis Matrix

theorem pairN_list {l : ℕ} (i j : Fin l → ℕ) : List.ofFn (pairN i j) = List.ofFn i ++ List.ofFn j := by
  have h : pairN i j = FockS.pairEquiv l (i, j) := by
    symm
    apply pairN_ext <;> intro k <;> rw [FockS.pairEquiv_quad] <;> rfl
  rw [h, FockS.pairEquiv_list]

variable {l : ℕ}

/-- the symplectic matrix of the Choi state as `fock_tensor` computes it -/
theorem choi_phase (S : ℕ → ℕ → ℝ) (r : ℝ) : ∃ Sx, expand (2 * l) S (List.range l) (2 * l) = .ok Sx ∧
    phase (2 * l) (2 * l) (mmul (4 * l) Sx (block (2 * l) (2 * l)
        (block l l (fun i j => Real.cosh r * eye i j) (fun i j => Real.sinh r * eye i j) (fun i j => Real.sinh r * eye i j) (fun i j => Real.cosh r * eye i j))
        (block l l (fun _ _ => 0) (fun _ _ => 0) (fun _ _ => 0) (fun _ _ => 0)) (block l l (fun _ _ => 0) (fun _ _ => 0) (fun _ _ => 0) (fun _ _ => 0))
        (block l l (fun i j => Real.cosh r * eye i j) (fun i j => -(Real.sinh r * eye i j)) (fun i j => -(Real.sinh r * eye i j)) (fun i j => Real.cosh r * eye i j)))) =
      choiS (phase l l S) r := by
  obtain ⟨Sx, h1, h2, h3⟩ := expand_entries l S (List.range l) (2 * l) (by simp) List.nodup_range (fun m hm => by have := List.mem_range.mp hm; omega)
  refine ⟨Sx, h1, ?_⟩
  have hg : ∀ a < l, (List.range l).getD a 0 = a := fun a ha => by rw [List.getD_eq_getElem _ _ (by simpa using ha)]; simp
  rw [show 4 * l = 2 * (2 * l) by ring, phase_mmul _ (2 * l)]
  have hq : ∀ p : Fin l ⊕ Fin l, ((quadEquiv l p : Fin (2 * l)) : ℕ) = quad l p := fun p => rfl
  have e1 : phase (2 * l) (2 * l) Sx = (sOne (phase l l S)).submatrix (Sum.map (quadEquiv l).symm (quadEquiv l).symm) (Sum.map (quadEquiv l).symm (quadEquiv l).symm) := by
    have key : ∀ p q : (Fin l ⊕ Fin l) ⊕ (Fin l ⊕ Fin l),
        phase (2 * l) (2 * l) Sx (Sum.map (quadEquiv l) (quadEquiv l) p) (Sum.map (quadEquiv l) (quadEquiv l) q) = sOne (phase l l S) p q := by
      have hL : ∀ (a b : Fin l), Sx a b = S a b ∧ Sx a (2 * l + b) = S a (l + b) ∧ Sx (2 * l + a) b = S (l + a) b ∧ Sx (2 * l + a) (2 * l + b) = S (l + a) (l + b) := by
        intro a b
        have := h2 a a.2 b b.2
        rwa [hg a a.2, hg b b.2] at this
      have hZ : ∀ i < 2 * (2 * l), ∀ j < 2 * (2 * l), l ≤ (if i < 2 * l then i else i - 2 * l) → Sx i j = (if i = j then 1 else 0) ∧ Sx j i = if j = i then 1 else 0 :=
        fun i hi j hj h => h3 i hi j hj (by simpa using h)
      rintro ((a | a) | (a | a)) ((b | b) | (b | b)) <;>
        simp only [Sum.map_inl, Sum.map_inr, phase, of_apply, quad, Sum.elim_inl, Sum.elim_inr, hq, sOne, fromBlocks_apply₁₁, fromBlocks_apply₁₂, fromBlocks_apply₂₁,
          fromBlocks_apply₂₂, toBlocks₁₁, toBlocks₁₂, toBlocks₂₁, toBlocks₂₂, Matrix.zero_apply, Matrix.one_apply]
      · exact (hL a b).1
      · rw [(hZ (l + b) (by omega) a (by omega) (by rw [if_pos (by omega)]; omega)).2, if_neg (by omega)]
      · exact (hL a b).2.1
      · rw [(hZ (2 * l + (l + b)) (by omega) a (by omega) (by rw [if_neg (by omega)]; omega)).2, if_neg (by omega)]
      · rw [(hZ (l + a) (by omega) b (by omega) (by rw [if_pos (by omega)]; omega)).1, if_neg (by omega)]
      · rw [(hZ (l + a) (by omega) (l + b) (by omega) (by rw [if_pos (by omega)]; omega)).1]
        exact if_congr (by rw [Fin.ext_iff]; omega) rfl rfl
      · rw [(hZ (l + a) (by omega) (2 * l + b) (by omega) (by rw [if_pos (by omega)]; omega)).1, if_neg (by omega)]
      · rw [(hZ (l + a) (by omega) (2 * l + (l + b)) (by omega) (by rw [if_pos (by omega)]; omega)).1, if_neg (by omega)]
      · exact (hL a b).2.2.1
      · rw [(hZ (l + b) (by omega) (2 * l + a) (by omega) (by rw [if_pos (by omega)]; omega)).2, if_neg (by omega)]
      · exact (hL a b).2.2.2
      · rw [(hZ (2 * l + (l + b)) (by omega) (2 * l + a) (by omega) (by rw [if_neg (by omega)]; omega)).2, if_neg (by omega)]
      · rw [(hZ (2 * l + (l + a)) (by omega) b (by omega) (by rw [if_neg (by omega)]; omega)).1, if_neg (by omega)]
      · rw [(hZ (2 * l + (l + a)) (by omega) (l + b) (by omega) (by rw [if_neg (by omega)]; omega)).1, if_neg (by omega)]
      · rw [(hZ (2 * l + (l + a)) (by omega) (2 * l + b) (by omega) (by rw [if_neg (by omega)]; omega)).1, if_neg (by omega)]
      · rw [(hZ (2 * l + (l + a)) (by omega) (2 * l + (l + b)) (by omega) (by rw [if_neg (by omega)]; omega)).1]
        exact if_congr (by rw [Fin.ext_iff]; omega) rfl rfl
    ext p q
    have := key (Sum.map (quadEquiv l).symm (quadEquiv l).symm p) (Sum.map (quadEquiv l).symm (quadEquiv l).symm q)
    simpa using this
  have hblk : ∀ (a b c d : ℕ → ℕ → ℝ) (p q : Fin l ⊕ Fin l), block l l a b c d (quad l p) (quad l q) = phase l l (block l l a b c d) p q := fun _ _ _ _ _ _ => rfl
  have e2 : phase (2 * l) (2 * l) (block (2 * l) (2 * l)
        (block l l (fun i j => Real.cosh r * eye i j) (fun i j => Real.sinh r * eye i j) (fun i j => Real.sinh r * eye i j) (fun i j => Real.cosh r * eye i j))
        (block l l (fun _ _ => 0) (fun _ _ => 0) (fun _ _ => 0) (fun _ _ => 0)) (block l l (fun _ _ => 0) (fun _ _ => 0) (fun _ _ => 0) (fun _ _ => 0))
        (block l l (fun i j => Real.cosh r * eye i j) (fun i j => -(Real.sinh r * eye i j)) (fun i j => -(Real.sinh r * eye i j)) (fun i j => Real.cosh r * eye i j))) =
      (sTms (Fin l) r).submatrix (Sum.map (quadEquiv l).symm (quadEquiv l).symm) (Sum.map (quadEquiv l).symm (quadEquiv l).symm) := by
    have key : ∀ p q : (Fin l ⊕ Fin l) ⊕ (Fin l ⊕ Fin l), phase (2 * l) (2 * l) (block (2 * l) (2 * l)
        (block l l (fun i j => Real.cosh r * eye i j) (fun i j => Real.sinh r * eye i j) (fun i j => Real.sinh r * eye i j) (fun i j => Real.cosh r * eye i j))
        (block l l (fun _ _ => 0) (fun _ _ => 0) (fun _ _ => 0) (fun _ _ => 0)) (block l l (fun _ _ => 0) (fun _ _ => 0) (fun _ _ => 0) (fun _ _ => 0))
        (block l l (fun i j => Real.cosh r * eye i j) (fun i j => -(Real.sinh r * eye i j)) (fun i j => -(Real.sinh r * eye i j)) (fun i j => Real.cosh r * eye i j)))
        (Sum.map (quadEquiv l) (quadEquiv l) p) (Sum.map (quadEquiv l) (quadEquiv l) q) = sTms (Fin l) r p q := by
      rintro (a | a) (b | b)
      all_goals
        rw [phase_block]
        simp only [Sum.map_inl, Sum.map_inr, fromBlocks_apply₁₁, fromBlocks_apply₁₂, fromBlocks_apply₂₁, fromBlocks_apply₂₂, toMatrix, of_apply, hq]
        rw [hblk, phase_block]
        rcases a with a | a <;> rcases b with b | b <;>
        simp [sTms, toMatrix, eye, Matrix.one_apply, Fin.ext_iff]
    ext p q
    have := key (Sum.map (quadEquiv l).symm (quadEquiv l).symm p) (Sum.map (quadEquiv l).symm (quadEquiv l).symm q)
    simpa using this
  rw [e1, e2]
  unfold choiS
  have hm : (Sum.map (quadEquiv l).symm (quadEquiv l).symm : Fin (2 * l) ⊕ Fin (2 * l) → _) = (Equiv.sumCongr (quadEquiv l).symm (quadEquiv l).symm) := rfl
  rw [hm, submatrix_mul_equiv]

/-- the branch of `fock_tensor` for interferometers -/
theorem passive_value {sjunk : ℕ → ℂ} (S : ℕ → ℕ → ℝ) (hS : IsSymp l S) (ho : phase l l S * (phase l l S)ᵀ = 1) (cutoff : ℕ) (hc : 0 < cutoff) (hc2 : cutoff ≤ 1000) :
    ∃ T, Model.interferometer (sqrtTable sjunk) (isClose 0 0) (.arr (2 * l) (2 * l) fun i j => some (block l l (fun _ _ => (0 : ℂ))
          (fun i j => -((S i j : ℂ) - Complex.I * S i (l + j))) (fun i j => -((S j i : ℂ) - Complex.I * S j (l + i))) (fun _ _ => 0) i j)) cutoff 1 true =
        .ok (.tensor (List.replicate (2 * l) cutoff) T) ∧
      ∀ i j : Fin l → ℕ, (∀ k, i k < cutoff) → (∀ k, j k < cutoff) → T (List.ofFn i ++ List.ofFn j) = gaussU (phase l l S) 0 i j := by
  have hb := symp_bog hS
  set M := phase l l S with hM
  -- the blocks
  have hMJ : M * J (Fin l) ℝ = J (Fin l) ℝ * M := by
    have h1 := SymplecticGroup.mem_iff.mp hS
    have h2 : Mᵀ * M = 1 := mul_eq_one_comm.mp ho
    calc M * J (Fin l) ℝ = M * J (Fin l) ℝ * (Mᵀ * M) := by rw [h2, Matrix.mul_one]
      _ = (M * J (Fin l) ℝ * Mᵀ) * M := by simp only [Matrix.mul_assoc]
      _ = _ := by rw [h1]
  rw [← fromBlocks_toBlocks M, J, fromBlocks_multiply, fromBlocks_multiply, fromBlocks_inj] at hMJ
  obtain ⟨h1, h2, -, -⟩ := hMJ
  simp only [Matrix.mul_zero, Matrix.mul_one, Matrix.zero_mul, Matrix.one_mul, zero_add, add_zero, Matrix.neg_mul, Matrix.mul_neg] at h1 h2
  have h1' : ∀ a b : Fin l, M (.inr a) (.inl b) = -M (.inl a) (.inr b) := fun a b => by
    have := congrFun (congrFun h1 a) b
    simp only [toBlocks₁₂, toBlocks₂₁, of_apply, Matrix.neg_apply] at this
    linarith
  have h2' : ∀ a b : Fin l, M (.inr a) (.inr b) = M (.inl a) (.inl b) := fun a b => by
    have := congrFun (congrFun h2 a) b
    simp only [toBlocks₁₁, toBlocks₂₂, of_apply, Matrix.neg_apply] at this
    linarith
  have hF : bogF M = 0 := by
    ext a b
    simp only [bogF, of_apply, h1', h2', Matrix.zero_apply]
    apply Complex.ext <;> simp
  have hE : ∀ a b : Fin l, bogE M a b = (S a b : ℂ) - Complex.I * S a (l + b) := by
    intro a b
    simp only [bogE, of_apply, h1', h2']
    apply Complex.ext <;> simp [hM, phase, quad] <;> ring
  have ha := hb.a
  have hEE : (bogE M)ᴴ * bogE M = 1 := by
    rw [hF] at ha
    simpa using ha
  have hEi : (cj (bogE M))⁻¹ = (bogE M)ᵀ := by
    apply Matrix.inv_eq_left_inv
    have := congrArg cj hEE
    rw [cj_mul, cj_one] at this
    rw [← this]
    congr 1
    ext a b; simp
  have hdet : ‖(bogE M).det‖ = 1 := by
    have := congrArg (fun X => ‖X.det‖) hEE
    simp only [det_mul, det_conjTranspose, norm_mul, norm_star, det_one, norm_one] at this
    nlinarith [norm_nonneg (bogE M).det]
  have hvac : uVac (bogE M) (bogF M) 0 = 1 := by
    unfold uVac
    rw [hdet]; simp
  have hR : uR (bogE M) (bogF M) = fromBlocks 0 (bogE M) (bogE M)ᵀ 0 := by
    unfold uR
    rw [hF, hEi, cj_zero]; simp
  have hY : uY (bogE M) (bogF M) (0 : Fin l → ℂ) = 0 := by
    unfold uY
    rw [hF]
    funext p
    rcases p with p | p <;> simp
  set A : ℕ → ℕ → ℂ := block l l (fun _ _ => (0 : ℂ)) (fun i j => ((S i j : ℂ) - Complex.I * S i (l + j))) (fun i j => ((S j i : ℂ) - Complex.I * S j (l + i))) (fun _ _ => 0) with hA
  have hneg : (fun i j => some (block l l (fun _ _ => (0 : ℂ)) (fun i j => -((S i j : ℂ) - Complex.I * S i (l + j))) (fun i j => -((S j i : ℂ) - Complex.I * S j (l + i))) (fun _ _ => 0) i j)) =
      fun i j => some (-A i j) := by
    funext i j
    rw [hA]
    unfold block
    split_ifs <;> simp
  obtain ⟨T, hT, hTv⟩ := interferometer_lh (l := l) (sjunk := sjunk) (close := isClose 0 0) (isClose_refl le_rfl le_rfl) A
    (fun i hi j hj => by rw [hA]; unfold block; split_ifs <;> first | rfl | (exfalso; omega))
    (fun i hi j hj h => by rw [hA]; unfold block; split_ifs <;> first | rfl | (exfalso; omega)) cutoff hc hc2
  rw [hneg]
  refine ⟨T, hT, fun i j hi hj => ?_⟩
  rw [← pairN_list, hTv]
  · unfold gaussU
    rw [hvac, lh_fockAmp _ _ A (fun _ => 0), one_mul]
    · intro x y
      obtain ⟨p, rfl⟩ := (quadEquiv l).surjective x
      obtain ⟨q, rfl⟩ := (quadEquiv l).surjective y
      rw [hR, submatrix_apply, Equiv.symm_apply_apply, Equiv.symm_apply_apply, hA]
      have hblk : ∀ a b c d : ℕ → ℕ → ℂ, block l l a b c d (quadEquiv l p : ℕ) (quadEquiv l q : ℕ) = phase l l (block l l a b c d) p q := fun _ _ _ _ => rfl
      rw [hblk, phase_block]
      rcases p with a | a <;> rcases q with b | b <;> simp [toMatrix, hE]
    · intro x
      rw [hY]; rfl
  · intro a
    obtain ⟨p, rfl⟩ := (quadEquiv l).surjective a
    rcases p with k | k
    · rw [pairN_inl]; exact hi k
    · rw [pairN_inr]; exact hj k

/-- the Choi branch of `fock_tensor` -/
theorem choi_value {sjunk : ℕ → ℂ} (closeR : ℝ → ℝ → Bool) (S : ℕ → ℕ → ℝ) (hS : IsSymp l S) (alpha : ℕ → ℂ) (cutoff : ℕ) (hc : 0 < cutoff) (hc2 : cutoff ≤ 1000) (r : ℝ)
    (hr : r ≠ 0) (atol : ℝ) (Sexp : ℕ → ℕ → ℝ) (hSe : phase (2 * l) (2 * l) Sexp = choiS (phase l l S) r) (mu : ℕ → ℝ)
    (hmu : ∀ k < 2 * l, mu k = 2 * (if k < l then alpha k else 0).re ∧ mu (2 * l + k) = 2 * (if k < l then alpha k else 0).im) :
    ∃ T, stateVector (sqrtTable sjunk) (isClose 0 0) closeR (2 * l) mu (mmul (4 * l) Sexp (tr Sexp)) none false cutoff 2 atol false (some r) = .ok T ∧
      ∀ i j : Fin l → ℕ, (∀ k, i k < cutoff) → (∀ k, j k < cutoff) → T (List.ofFn i ++ List.ofFn j) = gaussU (phase l l S) (fun k : Fin l => alpha k) i j := by
  set cov := mmul (4 * l) Sexp (tr Sexp) with hcov
  have hS2 : choiS (phase l l S) r ∈ symplecticGroup (Fin (2 * l)) ℝ := choiS_symp hS r
  have hph : phase (2 * l) (2 * l) cov = ((2 : ℝ) / 2) • (choiS (phase l l S) r * (choiS (phase l l S) r)ᵀ) := by
    rw [hcov, show 4 * l = 2 * (2 * l) by ring, phase_mmul _ (2 * l), phase_tr, hSe]; simp
  have hphys : Physical (phase (2 * l) (2 * l) cov) 2 := (symp_physical (by norm_num) hS2 hph).1
  have hsym := physical_sym hphys
  have hdet := det_W_pos hphys (by norm_num)
  have hα : ∀ k : Fin (2 * l), complexToReal (2 * l) mu 2 k = choiA (fun k : Fin l => alpha k) k := by
    intro k
    rw [(complexToReal_entries (2 * l) mu 2 k k.2).1]
    have hs : Real.sqrt (2 * 2) = 2 := by rw [show (2 * 2 : ℝ) = 2 ^ 2 by norm_num]; exact Real.sqrt_sq (by norm_num)
    obtain ⟨m1, m2⟩ := hmu k k.2
    have ha : amp (2 * l) mu k = 2 * (if (k : ℕ) < l then alpha k else 0) := by
      unfold amp
      rw [m1, m2]
      generalize (if (k : ℕ) < l then alpha k else 0) = z
      apply Complex.ext <;> simp
    rw [ha, hs]
    obtain ⟨p, rfl⟩ := (quadEquiv l).surjective k
    have hq : ((quadEquiv l p : Fin (2 * l)) : ℕ) = quad l p := rfl
    rw [hq]
    rcases p with p | p
    · simp [quad, choiA]
    · simp [quad, choiA]
  obtain ⟨A, γ, hA, hAs, hγ, -, -⟩ := pure_setup (N := 2 * l) (cov := cov) (hbar := 2) mu (by norm_num) hphys (by
    rw [hph, smul_smul]
    have := SymplecticGroup.det_eq_one hS2
    simp [det_mul, this])
  obtain ⟨T, hT, hTv⟩ := sva_choi (l := l) (cov := cov) (hbar := 2) (sjunk := sjunk) mu (by norm_num) hdet hsym A γ
    (fun k => (starRingEnd ℂ) (complexToReal (2 * l) mu 2 k) - dot (2 * l) (A k) (complexToReal (2 * l) mu 2)) hAs (fun k hk => (hγ k hk).symm) cutoff hc hc2 r
  refine ⟨T, ?_, fun i j hi hj => ?_⟩
  · unfold stateVector
    simp only [Bool.false_and, Bool.false_eq_true, if_false, bind, Except.bind, pure, Except.pure]
    rw [hA]
    simp only
    unfold pureExp at hT
    rw [hT]
  · rw [← pairN_list, hTv]
    · rw [psiFn_stAmp (by norm_num) hS2 hph A hA mu (choiA fun k : Fin l => alpha k) hα γ hγ, choi_amp hS]
      have ht : Real.tanh r ≠ 0 := by rw [Real.tanh_eq_sinh_div_cosh]; exact div_ne_zero (Real.sinh_ne_zero.mpr hr) (Real.cosh_pos r).ne'
      have hp : ∏ a : Fin (2 * l), resc l r a ^ pairN i j a = (((Real.tanh r : ℝ) : ℂ) ^ (∑ k, j k))⁻¹ := by
        rw [← (quadEquiv l).prod_comp, Fintype.prod_sum_type]
        have q1 : ∀ k : Fin l, resc l r ((quadEquiv l (.inl k) : Fin (2 * l)) : ℕ) = 1 := fun k => if_pos k.2
        have q2 : ∀ k : Fin l, resc l r ((quadEquiv l (.inr k) : Fin (2 * l)) : ℕ) = (((Real.tanh r : ℝ) : ℂ))⁻¹ := fun k => by
          unfold resc
          rw [if_neg (by show ¬ l + (k : ℕ) < l; omega), one_div, Complex.ofReal_inv]
        simp only [q1, q2, one_pow, Finset.prod_const_one, one_mul, pairN_inr]
        rw [Finset.prod_pow_eq_pow_sum, inv_pow]
      rw [hp]
      have h1 : (((Real.tanh r : ℝ) : ℂ) ^ (∑ k, j k)) ≠ 0 := pow_ne_zero _ (Complex.ofReal_ne_zero.mpr ht)
      have h2 : ((Real.cosh r : ℝ) : ℂ) ^ l ≠ 0 := pow_ne_zero _ (Complex.ofReal_ne_zero.mpr (Real.cosh_pos r).ne')
      generalize (((Real.tanh r : ℝ) : ℂ) ^ (∑ k, j k)) = t at *
      generalize ((Real.cosh r : ℝ) : ℂ) ^ l = c at *
      field_simp
    · intro a
      obtain ⟨p, rfl⟩ := (quadEquiv l).surjective a
      rcases p with k | k
      · rw [pairN_inl]; exact hi k
      · rw [pairN_inr]; exact hj k

/-- The vacuum amplitude of the unitary returned by `fock_tensor`: with `M` the solution of `M conj(E) = F`,
`exp(-(|α|² - conj(α) M conj(α))/2) / √|det E|`. -/
def VacuumAmplitude {ι : Type} [Fintype ι] [DecidableEq ι] (S : Matrix (ι ⊕ ι) (ι ⊕ ι) ℝ) (α : ι → ℂ) (v : ℂ) : Prop :=
  ∃ M : Matrix ι ι ℂ, M * (bogE S).map (starRingEnd ℂ) = bogF S ∧
    v = Complex.exp (-(1 / 2) * (((∑ k, ‖α k‖ ^ 2 : ℝ) : ℂ) - star α ⬝ᵥ (M *ᵥ star α))) / ((Real.sqrt ‖(bogE S).det‖ : ℝ) : ℂ)

/-- **C78** for every symplectic matrix `S` of `l` modes and every displacement `alpha` there is a Gaussian unitary `U` (a unitary matrix in the Fock basis that transforms the
quadratures by `S` and displaces them by `alpha`), with the phase given by `VacuumAmplitude`, such that `fock_tensor` returns its matrix elements: entry
`[i_1, …, i_l, j_1, …, j_l]` (with `sf_order`, `[i_1, j_1, …, i_l, j_l]`) is `⟨i|U|j⟩`, for every cutoff up to 1000, whatever the squeezing `choi_r ≠ 0` of the Choi state and
whichever of the two branches is taken.  The tolerance tests of the branch for interferometers are arbitrary, except that they must not accept matrices or displacements
which are not exactly those of an interferometer. -/
theorem fockTensor_correct (S : ℕ → ℕ → ℝ) (hS : IsSymp l S) (alpha : ℕ → ℂ) :
    ∃ U : (Fin l → ℕ) → (Fin l → ℕ) → ℂ, IsGaussianUnitary (phase l l S) (fun k : Fin l => alpha k) U ∧ VacuumAmplitude (phase l l S) (fun k : Fin l => alpha k) (U 0 0) ∧
      ∀ (sjunk : ℕ → ℂ) (closeR : ℝ → ℝ → Bool) (closeC : ℂ → ℂ → Bool) (cutoff : ℕ) (choiR : ℝ) (checkSymplectic sfOrd : Bool) (atol : ℝ),
        (∀ x, closeR x x = true) →
        ((∀ i < 2 * l, ∀ j < 2 * l, closeR (mmul (2 * l) S (tr S) i j) (eye i j) = true) → (∀ i < l, closeC (alpha i) 0 = true) →
          (∀ i < 2 * l, ∀ j < 2 * l, mmul (2 * l) S (tr S) i j = eye i j) ∧ ∀ i < l, alpha i = 0) →
        0 < cutoff → cutoff ≤ 1000 → choiR ≠ 0 →
        ∃ T, fockTensor (sqrtTable sjunk) (isClose 0 0) closeR closeC (2 * l) S l alpha cutoff choiR checkSymplectic sfOrd atol = .ok T ∧
          ∀ i j : Fin l → ℕ, (∀ k, i k < cutoff) → (∀ k, j k < cutoff) →
            T (if sfOrd then (List.finRange l).flatMap fun k => [i k, j k] else List.ofFn i ++ List.ofFn j) = U i j := by
  refine ⟨gaussU (phase l l S) fun k : Fin l => alpha k, gaussU_correct hS _, ?_, ?_⟩
  · refine ⟨bogF (phase l l S) * (cj (bogE (phase l l S)))⁻¹, ?_, ?_⟩
    · change bogF (phase l l S) * (cj (bogE (phase l l S)))⁻¹ * cj (bogE (phase l l S)) = _
      rw [Matrix.mul_assoc, cj_inv_mul (symp_bog hS), Matrix.mul_one]
    · rw [gaussU_zero]; rfl
  · intro sjunk closeR closeC cutoff choiR checkSymplectic sfOrd atol hrefl hpass hc hc2 hr
    have hl2 : 2 * l / 2 = l := by omega
    obtain ⟨Tm, hTm, hTv⟩ : ∃ T, (if allClose2 closeR (2 * l) (2 * l) (mmul (2 * l) S (tr S)) eye && (List.range l).all (fun i => closeC (alpha i) 0) then
        (Model.interferometer (sqrtTable sjunk) (isClose 0 0) (.arr (2 * l) (2 * l) fun i j => some (block l l (fun _ _ => (0 : ℂ))
          (fun i j => -((S i j : ℂ) - Complex.I * S i (l + j))) (fun i j => -((S j i : ℂ) - Complex.I * S j (l + i))) (fun _ _ => 0) i j)) cutoff 1 true).map HermiteOut.get
      else (expand (2 * l) S (List.range l) (2 * l)).bind fun Sx =>
        stateVector (sqrtTable sjunk) (isClose 0 0) closeR (2 * l)
          (fun i => if i < 2 * l then 2 * (if i < l then alpha i else 0).re else 2 * (if i - 2 * l < l then alpha (i - 2 * l) else 0).im)
          (mmul (4 * l) (mmul (4 * l) Sx (block (2 * l) (2 * l)
            (block l l (fun i j => Real.cosh choiR * eye i j) (fun i j => Real.sinh choiR * eye i j) (fun i j => Real.sinh choiR * eye i j) (fun i j => Real.cosh choiR * eye i j))
            (block l l (fun _ _ => 0) (fun _ _ => 0) (fun _ _ => 0) (fun _ _ => 0)) (block l l (fun _ _ => 0) (fun _ _ => 0) (fun _ _ => 0) (fun _ _ => 0))
            (block l l (fun i j => Real.cosh choiR * eye i j) (fun i j => -(Real.sinh choiR * eye i j)) (fun i j => -(Real.sinh choiR * eye i j))
              (fun i j => Real.cosh choiR * eye i j))))
            (tr (mmul (4 * l) Sx (block (2 * l) (2 * l)
            (block l l (fun i j => Real.cosh choiR * eye i j) (fun i j => Real.sinh choiR * eye i j) (fun i j => Real.sinh choiR * eye i j) (fun i j => Real.cosh choiR * eye i j))
            (block l l (fun _ _ => 0) (fun _ _ => 0) (fun _ _ => 0) (fun _ _ => 0)) (block l l (fun _ _ => 0) (fun _ _ => 0) (fun _ _ => 0) (fun _ _ => 0))
            (block l l (fun i j => Real.cosh choiR * eye i j) (fun i j => -(Real.sinh choiR * eye i j)) (fun i j => -(Real.sinh choiR * eye i j))
              (fun i j => Real.cosh choiR * eye i j)))))) none false cutoff 2 atol false (some choiR)) = Except.ok T ∧
        ∀ i j : Fin l → ℕ, (∀ k, i k < cutoff) → (∀ k, j k < cutoff) → T (List.ofFn i ++ List.ofFn j) = gaussU (phase l l S) (fun k : Fin l => alpha k) i j := by
      by_cases hp : (allClose2 closeR (2 * l) (2 * l) (mmul (2 * l) S (tr S)) eye && (List.range l).all (fun i => closeC (alpha i) 0)) = true
      · rw [if_pos hp]
        rw [Bool.and_eq_true, allClose2_iff, List.all_eq_true] at hp
        obtain ⟨p1, p2⟩ := hpass hp.1 fun i hi => hp.2 i (List.mem_range.mpr hi)
        have ho : phase l l S * (phase l l S)ᵀ = 1 := by
          rw [← phase_tr, ← phase_mmul, ← phase_eye]
          exact (phase_ext_iff _ _ _ _).mpr p1
        have ha : (fun k : Fin l => alpha k) = 0 := by funext k; exact p2 k k.2
        obtain ⟨T, hT, hTv⟩ := passive_value (sjunk := sjunk) S hS ho cutoff hc hc2
        rw [hT, ha]
        exact ⟨T, rfl, hTv⟩
      · rw [if_neg hp]
        obtain ⟨Sx, hSx, hphase⟩ := choi_phase (l := l) S choiR
        rw [hSx]
        exact choi_value closeR S hS alpha cutoff hc hc2 choiR hr atol _ hphase _ fun k hk => by
          constructor
          · rw [if_pos hk]
          · rw [if_neg (by omega), Nat.add_sub_cancel_left]
    refine ⟨if sfOrd then transposeT (sfOrder l) Tm else Tm, ?_, fun i j hi hj => ?_⟩
    · unfold fockTensor
      rw [hl2, isSymplectic_of closeR hrefl l S hS]
      simp only [Bool.not_true, Bool.and_false, Bool.false_eq_true, if_false, ne_eq, not_true_eq_false]
      have hfin : ∀ e : Except PyErr (MArr ℂ), e = .ok Tm →
          (e.bind fun tensor => if sfOrd = true then Except.ok (transposeT (sfOrder l) tensor) else Except.ok tensor) =
            .ok (if sfOrd then transposeT (sfOrder l) Tm else Tm) := by
        rintro _ rfl
        rcases sfOrd with _ | _ <;> rfl
      by_cases hp : (allClose2 closeR (2 * l) (2 * l) (mmul (2 * l) S (tr S)) eye && (List.range l).all (fun i => closeC (alpha i) 0)) = true
      · rw [if_pos hp] at hTm ⊢
        exact hfin _ hTm
      · rw [if_neg hp] at hTm ⊢
        simp only [bind, pure, Except.pure]
        cases hx : expand (2 * l) S (List.range l) (2 * l) with
        | error e => rw [hx] at hTm; cases hTm
        | ok Sx => rw [hx] at hTm; exact hfin _ hTm
    · rcases sfOrd with _ | _
      · simp only [Bool.false_eq_true, if_false]; exact hTv i j hi hj
      · simp only [if_true]
        rw [transpose_sf]; exact hTv i j hi hj

/-- **C78**, error branches: a vector `alpha` whose length is not half the number of rows of `S` raises `ValueError`, and so does a matrix rejected by the symplecticity check;
with exact comparisons that check rejects exactly the matrices which are not symplectic. -/
theorem fockTensor_raises (sq : ℕ → ℂ) (close : ℂ → ℂ → Bool) (closeR : ℝ → ℝ → Bool) (closeC : ℂ → ℂ → Bool) (m : ℕ) (S : ℕ → ℕ → ℝ) (la : ℕ) (alpha : ℕ → ℂ) (cutoff : ℕ)
    (choiR : ℝ) (checkSymplectic sfOrd : Bool) (atol : ℝ) :
    (m / 2 ≠ la → fockTensor sq close closeR closeC m S la alpha cutoff choiR checkSymplectic sfOrd atol = .error .valueError) ∧
    ((∀ x y, closeR x y = true ↔ x = y) → ¬ (m % 2 = 0 ∧ IsSymp (m / 2) S) →
      fockTensor sq close closeR closeC m S la alpha cutoff choiR true sfOrd atol = .error .valueError) := by
  constructor
  · intro h
    unfold fockTensor
    split_ifs
    · rfl
    · rfl
  · intro hc h
    unfold fockTensor
    rw [if_pos]
    · rfl
    · have : ¬ isSymplectic closeR m m S = true := by
        rw [isSymplectic_exact closeR hc]
        tauto
      simpa using this

/-- non-vacuity: two-mode squeezing followed by a displacement, with exact comparisons and the default Choi squeezing, in both index orders -/
example (r phi : ℝ) (alpha : ℕ → ℂ) : ∃ U, IsGaussianUnitary (phase 2 2 (Symp.twoModeSqueezing r phi)) (fun k : Fin 2 => alpha k) U ∧ ∀ sf : Bool,
    ∃ T, fockTensor (sqrtTable fun _ => 0) (isClose 0 0) (isClose 0 0) (isClose 0 0) 4 (Symp.twoModeSqueezing r phi) 2 alpha 7 (Real.arsinh 1) true sf 0 = .ok T ∧
      T (if sf then [1, 2, 3, 4] else [1, 3, 2, 4]) = U ![1, 3] ![2, 4] := by
  obtain ⟨U, hU, -, h⟩ := fockTensor_correct (l := 2) _ (twoModeSqueezing_symplectic r phi) alpha
  refine ⟨U, hU, fun sf => ?_⟩
  obtain ⟨T, hT, hv⟩ := h (fun _ => 0) (isClose 0 0) (isClose 0 0) 7 (Real.arsinh 1) true sf 0 (isClose_refl le_rfl le_rfl)
    (fun h1 h2 => ⟨fun i hi j hj => (isClose_zero _ _).mp (h1 i hi j hj), fun i hi => (isClose_zero _ _).mp (h2 i hi)⟩) (by norm_num) (by norm_num)
    (by rw [ne_eq, Real.arsinh_eq_zero_iff]; norm_num)
  refine ⟨T, hT, ?_⟩
  have := hv ![1, 3] ![2, 4] (by intro k; fin_cases k <;> simp) (by intro k; fin_cases k <;> simp)
  rw [← this]
  rcases sf with _ | _ <;> rfl

/-- non-vacuity of the branch for interferometers: a beamsplitter -/
example (θ φ : ℝ) : ∃ U, IsGaussianUnitary (phase 2 2 (Symp.beamSplitter θ φ)) (fun _ : Fin 2 => 0) U ∧ U 0 0 ≠ 0 := by
  obtain ⟨U, hU, ⟨M, -, hv⟩, -⟩ := fockTensor_correct (l := 2) _ (beamSplitter_symplectic θ φ) fun _ => 0
  refine ⟨U, hU, ?_⟩
  rw [hv]
  refine div_ne_zero (Complex.exp_ne_zero _) (Complex.ofReal_ne_zero.mpr (Real.sqrt_pos.mpr (norm_pos_iff.mpr ?_)).ne')
  exact ((isUnit_iff_isUnit_det _).mp (bogE_isUnit (beamSplitter_symplectic θ φ))).ne_zero

end Verif.Props
