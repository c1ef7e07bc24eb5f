/-
C69: `density_matrix_element` returns the matrix elements of the Gaussian state in the Fock basis, with the two indices exchanged.
-/
import Verif.Lemmas.FockUnique
import Verif.Model.FockTensors
import Verif.Props.Expectation

set_option linter.unusedSectionVars false
set_option linter.unusedSimpArgs false

namespace Verif.Props
open Verif.Model Verif.Model.Symp Verif.Model.Conv Verif.Model.Fock Verif.Spec Verif.Lemmas Verif.Lemmas.Symp Verif.Lemmas.FockS Verif.Lemmas.Chol Matrix

/-- both branches of the code compute the loop hafnian of the repeated matrix -/
theorem hafTerm_correct (n : ℕ) (A : ℕ → ℕ → ℂ) (hA : ∀ i < n, ∀ j < n, A i j = A j i) (gamma : Option (ℕ → ℂ)) (rpt : List ℕ) (hr : rpt.length = n) (hn : n ≠ 0) :
    hafTerm (isClose 0 0) n A gamma rpt = .ok (lh (gamma.getD fun _ => 0) A (repeatedIndices rpt)) := by
  unfold hafTerm
  rw [if_neg (by omega)]
  have hlt : ∀ x ∈ repeatedIndices rpt, x < n := fun x hx => hr ▸ repeatedIndices_lt hx
  split_ifs with hs hany
  · exfalso
    rw [List.any_eq_true] at hany
    obtain ⟨x, hx, hge⟩ := hany
    have hrows : reductionRows rpt = repeatedIndices rpt := by unfold reductionRows repeatedIndices; rw [List.flatMap_def]
    rw [hrows] at hx
    have := hlt x hx
    simp only [decide_eq_true_eq] at hge
    omega
  · have hrows : reductionRows rpt = repeatedIndices rpt := by unfold reductionRows repeatedIndices; rw [List.flatMap_def]
    have hrow : ∀ i < (reductionRows rpt).length, (reductionRows rpt).getD i 0 < n := by
      intro i hi
      rw [List.getD_eq_getElem _ _ hi]
      exact hlt _ (hrows ▸ List.getElem_mem hi)
    have hmap : (List.range (reductionRows rpt).length).map (fun i => (reductionRows rpt).getD i 0) = repeatedIndices rpt := by
      rw [← hrows]
      apply List.ext_getElem
      · simp
      · intro i h1 h2; rw [List.getElem_map, List.getElem_range, List.getD_eq_getElem _ _ h2]
    rcases gamma with _ | g
    · simp only [reduction2, Option.getD_none]
      rw [hafnian_arr]
      · congr 1
        simp only [Bool.false_eq_true, if_false]
        rw [← hmap, lh_map]
        rfl
      · intro i hi j hj
        exact hA _ (hrow i hi) _ (hrow j hj)
    · simp only [reduction2, reduction1, Option.getD_some]
      rw [hafnian_arr]
      · congr 1
        simp only [if_true]
        rw [← hmap, lh_map]
        apply lh_congr_nodup List.nodup_range
        · intro a ha; rfl
        · intro a ha b hb' hab
          rw [if_neg hab]
      · intro i hi j hj
        by_cases hij : i = j
        · subst hij; rfl
        · rw [if_neg hij, if_neg (Ne.symm hij)]
          exact hA _ (hrow i hi) _ (hrow j hj)
  · have e : (PyObj.arr n n fun i j => some (A i j)) = PyObj.ofMatrix (toMatrix n n A) fun i j => some (A i j) := by
      unfold PyObj.ofMatrix
      congr 1
      funext i j
      split_ifs <;> rfl
    rw [e, hafnianRepeated_correct (toMatrix n n A) (by ext i j; exact hA j j.2 i i.2) _ rpt hr gamma gamma.isSome true]
    congr 1
    have e2 : ∀ i ∈ repeatedIndices rpt, ∀ j ∈ repeatedIndices rpt, ofMatrix (toMatrix n n A) (fun _ _ => 0) i j = A i j := by
      intro i hi j hj
      simp only [ofMatrix, hlt i hi, hlt j hj, and_self, dif_pos]
      rfl
    rcases gamma with _ | g
    · rw [if_neg (by simp), spec_haf_repeated]
      exact lh_congr (fun _ _ => rfl) e2
    · rw [if_pos (by simp), spec_lhaf_repeated]
      exact lh_congr (fun _ _ => rfl) e2

variable {N : ℕ} {cov : ℕ → ℕ → ℝ} {hbar : ℝ}

theorem phaseVec_beta (mu : ℕ → ℝ) : phaseVec N (complexToReal N mu hbar) = dbl (ampVec (phaseVec N mu) hbar) := by
  funext p
  rcases p with p | p
  · show complexToReal N mu hbar p = _
    rw [(complexToReal_entries N mu hbar p p.2).1]
    rfl
  · show complexToReal N mu hbar (N + p) = _
    rw [(complexToReal_entries N mu hbar p p.2).2, (complexToReal_entries N mu hbar p p.2).1]
    rfl

theorem dot_phase (v w : ℕ → ℂ) : dot (2 * N) v w = phaseVec N v ⬝ᵥ phaseVec N w := by
  rw [dot_sum, ← sum_quad]
  rfl

/-- the value of `_prefactor` -/
theorem prefactor_correct (hsym : ∀ i < 2 * N, ∀ j < 2 * N, cov i j = cov j i) (hh : 0 < hbar) (hdet : 0 < (Wmat N cov hbar).det) (mu : ℕ → ℝ) :
    prefactor N mu cov hbar = .ok
      (Complex.exp (-(1 / 2) * (dbl (ampVec (phaseVec N mu) hbar) ⬝ᵥ (phase N N (Qmat N cov hbar))⁻¹ *ᵥ star (dbl (ampVec (phaseVec N mu) hbar))))
        / (Real.sqrt (Wmat N cov hbar).det : ℝ)) := by
  have hQ := det_Q hsym hh (N := N)
  obtain ⟨B, hB, hBp⟩ := npInv_phase N (Qmat N cov hbar) (by rw [hQ, Complex.ofReal_ne_zero]; exact hdet.ne')
  unfold prefactor
  simp only [bind, Except.bind, pure, Except.pure]
  rw [hB]
  simp only
  rw [← phase_det, hQ, csqrt_ofReal _ hdet.le, ← hBp, ← phaseVec_beta]
  congr 3
  simp only [dot_phase]
  simp only [dotProduct, Matrix.mulVec, Finset.sum_mul, Finset.mul_sum, phaseVec, dot_phase]
  rw [Finset.sum_comm]
  refine Finset.sum_congr rfl fun p _ => Finset.sum_congr rfl fun q _ => ?_
  simp only [phaseVec, phase, of_apply, Pi.star_apply, Complex.star_def]
  ring

theorem det_W_pos (hph : Physical (phase N N cov) hbar) (hh : 0 < hbar) : 0 < (Wmat N cov hbar).det := by
  have h := physical_posSemidef _ _ hph
  have h2 : ((hbar / 2) • (1 : Matrix (Fin N ⊕ Fin N) (Fin N ⊕ Fin N) ℝ)).PosDef := PosDef.one.smul (by positivity)
  have h3 := (h2.posSemidef_add h).smul (one_div_pos.mpr hh)
  unfold Wmat
  exact h3.det_pos

theorem physical_sym (hph : Physical (phase N N cov) hbar) : ∀ i < 2 * N, ∀ j < 2 * N, cov i j = cov j i := by
  intro i hi j hj
  obtain ⟨p, rfl⟩ := exists_quad N i hi
  obtain ⟨q, rfl⟩ := exists_quad N j hj
  exact congrFun (congrFun hph.1 q) p

/-- the norm that the code compares with `tol` -/
theorem norm2_beta (mu : ℕ → ℝ) (hh : 0 < hbar) : norm2 (2 * N) (complexToReal N mu hbar) = Real.sqrt ((∑ i ∈ Finset.range (2 * N), mu i ^ 2) / hbar) := by
  unfold norm2
  congr 1
  rw [dot_sum, ← sum_quad, ← sum_quad N fun i => mu i ^ 2, Fintype.sum_sum_type, Fintype.sum_sum_type, ← Finset.sum_add_distrib, ← Finset.sum_add_distrib, Finset.sum_div]
  refine Finset.sum_congr rfl fun k _ => ?_
  have h1 := (complexToReal_entries N mu hbar k k.2).1
  have h2 := (complexToReal_entries N mu hbar k k.2).2
  show ‖complexToReal N mu hbar k‖ * ‖complexToReal N mu hbar k‖ + ‖complexToReal N mu hbar (N + k)‖ * ‖complexToReal N mu hbar (N + k)‖ = _
  rw [h2, RCLike.norm_conj, h1, norm_div, Complex.norm_real, Real.norm_of_nonneg (Real.sqrt_nonneg _), div_mul_div_comm, Complex.norm_mul_self_eq_normSq,
    Real.mul_self_sqrt (by positivity), Complex.normSq_apply]
  simp only [amp, quad, Sum.elim_inl, Sum.elim_inr]
  have := hh.ne'
  field_simp
  ring

theorem lh_zero_gamma (tol : ℝ) (mu : ℕ → ℝ) (A : ℕ → ℕ → ℂ) (hh : 0 < hbar)
    (htol : (∀ i < 2 * N, mu i = 0) ∨ tol ≤ Real.sqrt ((∑ i ∈ Finset.range (2 * N), mu i ^ 2) / hbar)) (l : List ℕ) (hl : ∀ i ∈ l, i < 2 * N) (γ : ℕ → ℂ)
    (hγ : ∀ k < 2 * N, (∀ i < 2 * N, mu i = 0) → γ k = 0) :
    lh ((if norm2 (2 * N) (complexToReal N mu hbar) < tol then none else some γ).getD fun _ => 0) A l = lh γ A l := by
  split_ifs with h
  · rcases htol with h0 | h0
    · refine lh_congr (fun i hi => ?_) fun _ _ _ _ => rfl
      rw [Option.getD_none, hγ i (hl i hi) h0]
    · rw [norm2_beta mu hh] at h
      exact absurd h (not_lt.mpr h0)
  · rfl

theorem beta_zero (mu : ℕ → ℝ) (h : ∀ i < 2 * N, mu i = 0) (k : ℕ) (hk : k < 2 * N) : complexToReal N mu hbar k = 0 := by
  obtain ⟨p, rfl⟩ := exists_quad N k hk
  have := congrFun (phaseVec_beta (N := N) (hbar := hbar) mu) p
  show phaseVec N (complexToReal N mu hbar) p = 0
  rw [this]
  have h0 : ∀ q, phaseVec N mu q = 0 := fun q => h _ (quad_lt N q)
  have h1 : ∀ a, ampVec (phaseVec N mu) hbar a = 0 := by
    intro a
    unfold ampVec
    rw [h0, h0, show (⟨0, 0⟩ : ℂ) = 0 from rfl, zero_div]
  rcases p with p | p <;> simp [dbl, h1]

/-- **C69** For every physical Gaussian state and all occupation numbers `i`, `j`, `density_matrix_element(mu, cov, i, j)` is the matrix element
`⟨j|ρ|i⟩` of the state (the docstring announces `⟨i|ρ|j⟩`, its complex conjugate), provided that the displacement is zero or at least `tol`. -/
theorem densityMatrixElement_correct (hN : N ≠ 0) (mu : ℕ → ℝ) (cov : ℕ → ℕ → ℝ) (hbar tol : ℝ) (hh : 0 < hbar) (hph : Physical (phase N N cov) hbar)
    (htol : (∀ i < 2 * N, mu i = 0) ∨ tol ≤ Real.sqrt ((∑ i ∈ Finset.range (2 * N), mu i ^ 2) / hbar)) :
    ∃ ρ, IsFockMatrix N mu cov hbar ρ ∧
      ∀ i j : Fin N → ℕ, densityMatrixElement (isClose 0 0) N mu cov (List.ofFn i) (List.ofFn j) true tol hbar = .ok (ρ j i) := by
  have hsym := physical_sym hph
  have hdet := det_W_pos hph hh
  have hQdet : (phase N N (Qmat N cov hbar)).det ≠ 0 := by rw [det_Q hsym hh, Complex.ofReal_ne_zero]; exact hdet.ne'
  obtain ⟨A, hA, hAt, -, hAQ, -⟩ := Amat_correct N cov hbar hsym hQdet
  set β := complexToReal N mu hbar with hβ
  let γ : ℕ → ℂ := fun k => (starRingEnd ℂ) (β k) - dot (2 * N) (A k) β
  have hγ : phaseVec N γ = star (dbl (ampVec (phaseVec N mu) hbar)) - phase N N A *ᵥ dbl (ampVec (phaseVec N mu) hbar) := by
    rw [← phaseVec_beta]
    funext p
    show (starRingEnd ℂ) (β (quad N p)) - dot (2 * N) (A (quad N p)) β = _
    rw [dot_phase]
    rfl
  refine ⟨_, rhoMat_fock hsym hh hdet.ne' mu A hAt hAQ γ hγ, fun i j => ?_⟩
  have hAs : ∀ a < 2 * N, ∀ b < 2 * N, A a b = A b a := by
    intro a ha b hb
    obtain ⟨p, rfl⟩ := exists_quad N a ha
    obtain ⟨q, rfl⟩ := exists_quad N b hb
    exact congrFun (congrFun hAt q) p
  have hlen : (List.ofFn i ++ List.ofFn j).length = 2 * N := by simp; omega
  unfold densityMatrixElement
  simp only [bind, Except.bind, pure, Except.pure]
  rw [hA]
  simp only
  rw [hafTerm_correct (2 * N) A hAs _ _ hlen (by omega)]
  simp only [if_true]
  rw [prefactor_correct hsym hh hdet mu]
  simp only
  rw [lh_zero_gamma tol mu A hh htol _ (fun x hx => by have := repeatedIndices_lt hx; omega)]
  · congr 1
    unfold rhoMat sqrtFacs
    rw [List.map_append, List.prod_append, List.map_ofFn, List.map_ofFn, List.prod_ofFn, List.prod_ofFn]
    simp only [Function.comp]
    rw [mul_comm (lh _ _ _)]
  · intro k hk h0
    rw [beta_zero mu h0 k hk, map_zero, zero_sub, neg_eq_zero, dot_sum]
    refine Finset.sum_eq_zero fun l hl => ?_
    rw [beta_zero mu h0 l (Finset.mem_range.mp hl), mul_zero]

/-- the two index orders agree only for states with a Husimi function that is symmetric under complex conjugation -/
theorem husimi_of_documented (hN : N ≠ 0) (mu : ℕ → ℝ) (cov : ℕ → ℕ → ℝ) (hbar tol : ℝ) (hh : 0 < hbar) (hph : Physical (phase N N cov) hbar)
    (htol : (∀ i < 2 * N, mu i = 0) ∨ tol ≤ Real.sqrt ((∑ i ∈ Finset.range (2 * N), mu i ^ 2) / hbar)) (ρ : (Fin N → ℕ) → (Fin N → ℕ) → ℂ)
    (hρ : IsFockMatrix N mu cov hbar ρ)
    (h : ∀ i j : Fin N → ℕ, densityMatrixElement (isClose 0 0) N mu cov (List.ofFn i) (List.ofFn j) true tol hbar = .ok (ρ i j)) (α : Fin N → ℂ) :
    husimiFn N mu cov hbar (fun k => (starRingEnd ℂ) (α k)) = husimiFn N mu cov hbar α := by
  obtain ⟨ρ', hρ', h'⟩ := densityMatrixElement_correct hN mu cov hbar tol hh hph htol
  rw [← fockMatrix_unique hρ hρ'] at h'
  have hs : ∀ i j, ρ i j = ρ j i := fun i j => Except.ok.inj ((h i j).symm.trans (h' i j))
  have h1 := hρ α
  have h2 := hρ fun k => (starRingEnd ℂ) (α k)
  rw [← (Equiv.prodComm _ _).hasSum_iff] at h2
  have hc : ∀ i, cohAmp (fun k => (starRingEnd ℂ) (α k)) i = (starRingEnd ℂ) (cohAmp α i) := by
    intro i
    unfold cohAmp
    simp [map_prod, map_div₀]
  have e : ((fun p : (Fin N → ℕ) × (Fin N → ℕ) => cohAmp (fun k => (starRingEnd ℂ) (α k)) p.1 * ρ p.1 p.2 * (starRingEnd ℂ) (cohAmp (fun k => (starRingEnd ℂ) (α k)) p.2)) ∘
      (Equiv.prodComm (Fin N → ℕ) (Fin N → ℕ))) = fun p => cohAmp α p.1 * ρ p.1 p.2 * (starRingEnd ℂ) (cohAmp α p.2) := by
    funext p
    simp only [Function.comp, Equiv.prodComm_apply, Prod.fst_swap, Prod.snd_swap, hc, starRingEnd_self_apply]
    rw [hs p.2 p.1]; ring
  rw [e] at h2
  have h3 := h1.unique h2
  rw [Complex.ofReal_inj] at h3
  simp only [Complex.normSq_conj] at h3
  exact (mul_left_cancel₀ (Real.exp_ne_zero _) h3).symm

theorem phase_vacuum (N : ℕ) (hbar : ℝ) : phase N N (vacuumState N hbar).cov = (hbar / 2) • (1 : Matrix (Fin N ⊕ Fin N) (Fin N ⊕ Fin N) ℝ) := by
  have h1 := phase_eye (K := ℝ) N
  ext p q
  have h2 := congrFun (congrFun h1 p) q
  simp only [phase, of_apply] at h2
  simp only [phase, vacuumState, of_apply, h2, Matrix.smul_apply, smul_eq_mul]
  ring

/-- means of the coherent state `α = i` (`ħ = 2`) -/
def cohMu : ℕ → ℝ := fun i => if i = 1 then 2 else 0

theorem cohMu_tol : (1 / 10 ^ 10 : ℝ) ≤ Real.sqrt ((∑ i ∈ Finset.range (2 * 1), cohMu i ^ 2) / 2) := by
  apply Real.le_sqrt_of_sq_le
  simp only [Nat.mul_one, Finset.sum_range_succ, Finset.sum_range_zero, cohMu]
  norm_num

/-- the hypotheses of `densityMatrixElement_correct` hold for a coherent state and the default tolerance -/
example : ∃ ρ, IsFockMatrix 1 cohMu (vacuumState 1 2).cov 2 ρ ∧
    ∀ i j : Fin 1 → ℕ, densityMatrixElement (isClose 0 0) 1 cohMu (vacuumState 1 2).cov (List.ofFn i) (List.ofFn j) true (1 / 10 ^ 10) 2 = .ok (ρ j i) :=
  densityMatrixElement_correct (by norm_num) _ _ _ _ (by norm_num) (physical_vacuum 1 2 (by norm_num)).1 (Or.inr cohMu_tol)

/-- **C69** The docstring's claim, `⟨i|ρ|j⟩` for all `i`, `j`, fails for the coherent state with amplitude `i`. -/
theorem densityMatrixElement_documented_false (ρ : (Fin 1 → ℕ) → (Fin 1 → ℕ) → ℂ) (hρ : IsFockMatrix 1 cohMu (vacuumState 1 2).cov 2 ρ) :
    ¬ ∀ i j : Fin 1 → ℕ, densityMatrixElement (isClose 0 0) 1 cohMu (vacuumState 1 2).cov (List.ofFn i) (List.ofFn j) true (1 / 10 ^ 10) 2 = .ok (ρ i j) := by
  intro h
  have hs := husimi_of_documented (by norm_num) _ _ _ _ (by norm_num) (physical_vacuum 1 2 (by norm_num)).1 (Or.inr cohMu_tol) ρ hρ h fun _ => Complex.I
  unfold husimiFn at hs
  simp only [phase_vacuum] at hs
  have hW : ((2 / 2 : ℝ) • (1 : Matrix (Fin 1 ⊕ Fin 1) (Fin 1 ⊕ Fin 1) ℝ) + (2 / 2 : ℝ) • 1) = (2 : ℝ) • 1 := by rw [← add_smul]; norm_num
  have hWi : ((2 : ℝ) • (1 : Matrix (Fin 1 ⊕ Fin 1) (Fin 1 ⊕ Fin 1) ℝ))⁻¹ = (1 / 2 : ℝ) • 1 := by
    apply Matrix.inv_eq_right_inv
    rw [smul_mul_smul_comm, one_mul]; norm_num
  rw [hW, hWi] at hs
  have hd : ((1 / 2 : ℝ) • (2 : ℝ) • (1 : Matrix (Fin 1 ⊕ Fin 1) (Fin 1 ⊕ Fin 1) ℝ)).det = 1 := by rw [smul_smul]; norm_num
  rw [hd] at hs
  have h4 : Real.sqrt (2 * 2) = 2 := by rw [Real.sqrt_mul_self (by norm_num)]
  simp [cohQuad, phaseVec, cohMu, quad, dotProduct, Matrix.mulVec, Matrix.smul_apply, Fintype.sum_sum_type, h4] at hs
  norm_num at hs

end Verif.Props
