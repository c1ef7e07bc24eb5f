/-
C71: pure Gaussian states: `pure_state_amplitude` and `state_vector`.
-/
import Verif.Props.FockDensityPost
import Verif.Props.Physical
import Verif.Lemmas.PermL

set_option linter.unusedSectionVars false
set_option linter.unusedSimpArgs false

namespace Verif.Props
open Verif.Model Verif.Model.Symp Verif.Model.Conv Verif.Model.Fock Verif.Spec Verif.Lemmas Verif.Lemmas.Symp Verif.Lemmas.FockS Verif.Lemmas.Chol Matrix

/-- the loop hafnian of a direct sum -/
theorem lh_append_zero {ι K : Type*} [CommRing K] (D : ι → K) (A : ι → ι → K) (L R : List ι) (h : ∀ x ∈ L, ∀ y ∈ R, A x y = 0) :
    lh D A (L ++ R) = lh D A L * lh D A R := by
  induction hn : L.length using Nat.strong_induction_on generalizing L with
  | _ n ih =>
    cases L with
    | nil => simp
    | cons x L =>
      simp only [List.length_cons] at hn
      rw [List.cons_append, lh_cons, lh_cons, eSum_append, ih L.length (by omega) L (fun a ha => h a (List.mem_cons_of_mem _ ha)) rfl]
      have e2 : eSum (fun y ys => A x y * lh D A (L ++ ys)) R = 0 := by
        rw [eSum_congr' (G := fun _ _ => 0)]
        · exact eSum_zero _
        · intro y ys hp
          rw [h x List.mem_cons_self y (hp.subset List.mem_cons_self), zero_mul]
      have e1 : eSum (fun y ys => A x y * lh D A (ys ++ R)) L = eSum (fun y ys => lh D A R * (A x y * lh D A ys)) L := by
        apply eSum_congr'
        intro y ys hp
        have hl := hp.length_eq
        simp only [List.length_cons] at hl
        rw [ih ys.length (by omega) ys (fun a ha => h a (List.mem_cons_of_mem _ (hp.subset (List.mem_cons_of_mem _ ha)))) rfl]
        ring
      rw [e1, e2, eSum_mul_left]
      ring

variable {N : ℕ} {cov : ℕ → ℕ → ℝ} {hbar : ℝ}

/-- the sign of the annihilation and creation operators -/
def Zs (N : ℕ) : Matrix (Fin N ⊕ Fin N) (Fin N ⊕ Fin N) ℂ := fromBlocks 1 0 0 (-1)

theorem Z_mul_U : Zs N * Um N = Um N * (Complex.I • (Matrix.J (Fin N) ℝ).map Complex.ofReal) := by
  have hJ : (Matrix.J (Fin N) ℝ).map Complex.ofReal = fromBlocks 0 (-1) 1 0 := by
    unfold Matrix.J
    rw [fromBlocks_map]
    congr 1 <;> ext i j <;> by_cases h : i = j <;> simp [h, Matrix.one_apply]
  rw [hJ, Zs, Um, fromBlocks_multiply, fromBlocks_smul, fromBlocks_multiply]
  congr 1 <;> ext i j <;> by_cases h : i = j <;> simp [h, Matrix.one_apply, smul_smul]

theorem inv_anticomm {n : Type*} [Fintype n] [DecidableEq n] (P Q Z : Matrix n n ℂ) (h1 : P * Q = 1) (h2 : Q * P = 1)
    (h : (2 : ℂ) • (Q * Z * Q) = Q * Z + Z * Q) : (2 : ℂ) • Z = Z * P + P * Z := by
  calc (2 : ℂ) • Z = P * ((2 : ℂ) • (Q * Z * Q)) * P := by
        rw [Matrix.mul_smul, Matrix.smul_mul, ← Matrix.mul_assoc, ← Matrix.mul_assoc, h1, Matrix.one_mul, Matrix.mul_assoc, h2, Matrix.mul_one]
    _ = P * Q * Z * P + P * Z * (Q * P) := by rw [h, Matrix.mul_add, Matrix.add_mul]; simp only [Matrix.mul_assoc]
    _ = _ := by rw [h1, h2, Matrix.one_mul, Matrix.mul_one]

/-- for a pure state the matrix `A` is block diagonal -/
theorem pure_block (hph : Physical (phase N N cov) hbar) (hh : 0 < hbar) (hpure : ((2 / hbar) • phase N N cov).det = 1) (A : ℕ → ℕ → ℂ)
    (hAQ : phase N N A * phase N N (Xmat N) = 1 - (phase N N (Qmat N cov hbar))⁻¹) : ∀ i < N, ∀ j < N, A i (N + j) = 0 ∧ A (N + i) j = 0 := by
  have hsym := physical_sym hph
  have hdet := det_W_pos hph hh
  have hsp := (physical_pure_iff _ hbar hh hph).mp hpure
  set W := Wmat N cov hbar with hW
  set Q := phase N N (Qmat N cov hbar) with hQ
  have hQu : IsUnit Q.det := by rw [hQ, det_Q hsym hh, isUnit_iff_ne_zero, Complex.ofReal_ne_zero]; exact hdet.ne'
  have hV : (2 / hbar) • phase N N cov = (2 : ℝ) • W - 1 := by
    rw [hW, Wmat, smul_smul, smul_add, smul_smul]
    have : 2 * (1 / hbar) * (hbar / 2) = 1 := by field_simp
    rw [this, one_smul, mul_one_div]; simp
  have hVs : ((2 : ℝ) • W - 1)ᵀ = (2 : ℝ) • W - 1 := by rw [← hV, transpose_smul, hph.1.eq]
  rw [hV, SymplecticGroup.mem_iff, hVs] at hsp
  set J := Matrix.J (Fin N) ℝ with hJ
  have h1 : (2 : ℝ) • (W * J * W) = W * J + J * W := by
    have : ((2 : ℝ) • W - 1) * J * ((2 : ℝ) • W - 1) = (2 : ℝ) • ((2 : ℝ) • (W * J * W)) - (2 : ℝ) • (W * J + J * W) + J := by
      simp only [Matrix.sub_mul, Matrix.mul_sub, Matrix.smul_mul, Matrix.mul_smul, Matrix.mul_one, Matrix.one_mul, smul_add]
      module
    rw [this] at hsp
    have h2 := add_eq_right.mp hsp
    rw [← smul_sub] at h2
    have h3 := (smul_eq_zero.mp h2).resolve_left (by norm_num)
    exact sub_eq_zero.mp h3
  have hQU : Q * Um N = Um N * cmap W := Q_mul_U hsym hh
  have hZU : Zs N * Um N = Um N * (Complex.I • cmap J) := Z_mul_U
  have hUu : IsUnit (Um N) := by
    have hd : IsUnit ((Um N)ᴴ * Um N).det := by
      rw [U_conj, det_smul, det_one, mul_one]
      exact (isUnit_iff_ne_zero.mpr (by norm_num)).pow _
    rw [det_mul] at hd
    exact (isUnit_iff_isUnit_det _).mpr (isUnit_of_mul_isUnit_right hd)
  have h1c : (2 : ℂ) • (cmap W * cmap J * cmap W) = cmap W * cmap J + cmap J * cmap W := by
    have := congrArg cmap h1
    rw [cmap_smul, cmap_add, cmap_mul, cmap_mul, cmap_mul] at this
    simpa using this
  have h2 : (2 : ℂ) • (Q * Zs N * Q) = Q * Zs N + Zs N * Q := by
    apply hUu.mul_right_cancel
    calc ((2 : ℂ) • (Q * Zs N * Q)) * Um N = Um N * (Complex.I • ((2 : ℂ) • (cmap W * cmap J * cmap W))) := by
          rw [Matrix.smul_mul, Matrix.mul_assoc, hQU, Matrix.mul_assoc, ← Matrix.mul_assoc (Zs N), hZU, Matrix.mul_assoc, ← Matrix.mul_assoc Q, hQU]
          simp only [Matrix.mul_smul, Matrix.smul_mul, Matrix.mul_assoc]
          rw [smul_comm]
      _ = _ := by
          rw [h1c, Matrix.add_mul, Matrix.mul_assoc Q, hZU, ← Matrix.mul_assoc Q, hQU, Matrix.mul_assoc (Zs N), hQU, ← Matrix.mul_assoc (Zs N), hZU]
          simp only [Matrix.mul_smul, Matrix.smul_mul, Matrix.mul_assoc, smul_add, Matrix.mul_add]
  set P := Q⁻¹ with hP
  have h3 : (2 : ℂ) • Zs N = Zs N * P + P * Zs N := by
    exact inv_anticomm P Q (Zs N) (Matrix.nonsing_inv_mul _ hQu) (Matrix.mul_nonsing_inv _ hQu) h2
  have h4 : Zs N * (phase N N A * phase N N (Xmat N)) + phase N N A * phase N N (Xmat N) * Zs N = 0 := by
    rw [hAQ, Matrix.mul_sub, Matrix.sub_mul, Matrix.mul_one, Matrix.one_mul]
    have : Zs N - Zs N * P + (Zs N - P * Zs N) = (2 : ℂ) • Zs N - (Zs N * P + P * Zs N) := by rw [two_smul]; abel
    rw [this, h3, sub_self]
  have hblk : phase N N A = fromBlocks (phase N N A).toBlocks₁₁ (phase N N A).toBlocks₁₂ (phase N N A).toBlocks₂₁ (phase N N A).toBlocks₂₂ := (fromBlocks_toBlocks _).symm
  rw [phase_Xmat, hblk, Zs, fromBlocks_multiply, fromBlocks_multiply, fromBlocks_multiply, fromBlocks_add] at h4
  rw [← fromBlocks_zero, fromBlocks_inj] at h4
  obtain ⟨a, b, c, d⟩ := h4
  simp only [Matrix.mul_zero, Matrix.mul_one, Matrix.zero_mul, Matrix.one_mul, zero_add, add_zero, Matrix.neg_mul, Matrix.mul_neg, neg_zero, Matrix.mul_zero] at a d
  intro i hi j hj
  have ha := congrFun (congrFun a ⟨i, hi⟩) ⟨j, hj⟩
  have hd := congrFun (congrFun d ⟨i, hi⟩) ⟨j, hj⟩
  simp only [Matrix.add_apply, Matrix.neg_apply, Matrix.zero_apply, toBlocks₁₂, toBlocks₂₁, of_apply, phase, quad, Sum.elim_inl, Sum.elim_inr] at ha hd
  constructor
  · have : (2 : ℂ) * A i (N + j) = 0 := by rw [two_mul]; exact ha
    simpa using this
  · have : (2 : ℂ) * A (N + i) j = 0 := by rw [two_mul]; linear_combination -hd
    simpa using this

theorem norm2_sq (n : ℕ) (v : ℕ → ℂ) : norm2 n v ^ 2 = ∑ k : Fin n, ‖v k‖ ^ 2 := by
  unfold norm2
  rw [Real.sq_sqrt (by rw [dot_sum]; exact Finset.sum_nonneg fun _ _ => mul_self_nonneg _), dot_sum, Finset.sum_range fun k => ‖v k‖ * ‖v k‖]
  exact Finset.sum_congr rfl fun k _ => (sq _).symm

/-- the exponent of the prefactor of the amplitudes -/
noncomputable def pureExp (N : ℕ) (mu : ℕ → ℝ) (hbar : ℝ) (A : ℕ → ℕ → ℂ) : ℂ :=
  -(1 / 2) * ((norm2 N (complexToReal N mu hbar) ^ 2 : ℝ) - dot N (fun j => dot N (complexToReal N mu hbar) fun i => A i j) (complexToReal N mu hbar))

/-- the amplitudes of a pure Gaussian state -/
noncomputable def psiFn (N : ℕ) (mu : ℕ → ℝ) (cov : ℕ → ℕ → ℝ) (hbar : ℝ) (A : ℕ → ℕ → ℂ) (γ : ℕ → ℂ) (n : Fin N → ℕ) : ℂ :=
  Complex.exp ((starRingEnd ℂ) (pureExp N mu hbar A)) * (starRingEnd ℂ) (lh γ A (repeatedIndices (List.ofFn n))) /
    ((Real.sqrt (Real.sqrt (Wmat N cov hbar).det) * Real.sqrt (∏ k, ((n k).factorial : ℝ)) : ℝ) : ℂ)

theorem pure_setup (mu : ℕ → ℝ) (hh : 0 < hbar) (hph : Physical (phase N N cov) hbar) (hpure : ((2 / hbar) • phase N N cov).det = 1) :
    ∃ (A : ℕ → ℕ → ℂ) (γ : ℕ → ℂ), Amat N cov hbar = .ok A ∧ (∀ i < 2 * N, ∀ j < 2 * N, A i j = A j i) ∧
      (∀ k < N, γ k = (starRingEnd ℂ) (complexToReal N mu hbar k) - dot N (A k) (complexToReal N mu hbar)) ∧
      (∀ k < N, (∀ i < 2 * N, mu i = 0) → γ k = 0) ∧
      IsFockMatrix N mu cov hbar fun i j => psiFn N mu cov hbar A γ i * (starRingEnd ℂ) (psiFn N mu cov hbar A γ j) := by
  obtain ⟨A, γ, pref, hA, hAt, hAQ, hγ, hγ0, hp, hpref, hF, hρ⟩ := fock_setup mu hh hph
  have hsym := physical_sym hph
  have hdet := det_W_pos hph hh
  have hQdet : (phase N N (Qmat N cov hbar)).det ≠ 0 := by rw [det_Q hsym hh, Complex.ofReal_ne_zero]; exact hdet.ne'
  obtain ⟨A', hA', -, hAc, -, -⟩ := Amat_correct N cov hbar hsym hQdet
  obtain rfl : A' = A := Except.ok.inj (hA'.symm.trans hA)
  have hblk := pure_block hph hh hpure A' hAQ
  have hAs : ∀ a < 2 * N, ∀ b < 2 * N, A' a b = A' b a := by
    intro a ha b hb
    obtain ⟨p, rfl⟩ := exists_quad N a ha
    obtain ⟨q, rfl⟩ := exists_quad N b hb
    exact congrFun (congrFun hAt q) p
  set β := complexToReal N mu hbar with hβ
  have hβc : ∀ k < N, β (N + k) = (starRingEnd ℂ) (β k) := fun k hk => (complexToReal_entries N mu hbar k hk).2
  have hdot : ∀ f g : ℕ → ℂ, dot (2 * N) f g = dot N f g + dot N (fun k => f (N + k)) fun k => g (N + k) := by
    intro f g
    rw [dot_sum, dot_sum, dot_sum, two_mul, Finset.sum_range_add]
  have hγ1 : ∀ k < N, γ k = (starRingEnd ℂ) (β k) - dot N (A' k) β := by
    intro k hk
    have e0 : dot N (fun l => A' k (N + l)) (fun l => β (N + l)) = 0 := by
      rw [dot_sum]
      refine Finset.sum_eq_zero fun l hl => ?_
      rw [(hblk k hk l (Finset.mem_range.mp hl)).1, zero_mul]
    rw [hγ]
    simp only
    rw [hdot, e0, add_zero]
  have hγ2 : ∀ k < N, γ (N + k) = (starRingEnd ℂ) (γ k) := by
    intro k hk
    have e0 : dot N (A' (N + k)) β = 0 := by
      rw [dot_sum]
      refine Finset.sum_eq_zero fun l hl => ?_
      rw [(hblk k hk l (Finset.mem_range.mp hl)).2, zero_mul]
    have e1 : γ (N + k) = (starRingEnd ℂ) (β (N + k)) - dot (2 * N) (A' (N + k)) β := by rw [hγ]
    rw [e1, hγ1 k hk, hdot, e0, zero_add, hβc k hk, map_sub, dot_sum, dot_sum, map_sum]
    congr 1
    refine Finset.sum_congr rfl fun l hl => ?_
    have hl' := Finset.mem_range.mp hl
    rw [(hAc k hk l hl').1, hβc l hl', map_mul]
  have hpre : (pref : ℂ) = Complex.exp ((starRingEnd ℂ) (pureExp N mu hbar A')) * Complex.exp (pureExp N mu hbar A') / ((Real.sqrt (Wmat N cov hbar).det : ℝ) : ℂ) := by
    have h1 := prefactor_correct hsym hh hdet mu
    have h2 := Except.ok.inj (hpref.symm.trans h1)
    rw [h2, ← Complex.exp_add]
    congr 2
    have hQi : (phase N N (Qmat N cov hbar))⁻¹ = 1 - phase N N A' * Xs N := by rw [phase_Xmat] at hAQ; rw [Xs, hAQ]; simp
    rw [hQi, Matrix.sub_mulVec, Matrix.one_mulVec, ← Matrix.mulVec_mulVec, X_dbl, dotProduct_sub, dbl_norm, ← phaseVec_beta, ← hβ]
    have hn : ((∑ k, Complex.normSq (ampVec (phaseVec N mu) hbar k) : ℝ)) = norm2 N β ^ 2 := by
      rw [norm2_sq]
      refine Finset.sum_congr rfl fun k _ => ?_
      have := congrFun (phaseVec_beta (N := N) (hbar := hbar) mu) (Sum.inl k)
      have h3 : β k = ampVec (phaseVec N mu) hbar k := this
      rw [h3, Complex.normSq_eq_norm_sq]
    rw [hn]
    have hq : phaseVec N β ⬝ᵥ phase N N A' *ᵥ phaseVec N β = dot N (fun j => dot N β fun i => A' i j) β + (starRingEnd ℂ) (dot N (fun j => dot N β fun i => A' i j) β) := by
      have e1 : phaseVec N β ⬝ᵥ phase N N A' *ᵥ phaseVec N β = dot (2 * N) β fun i => dot (2 * N) (A' i) β := by
        rw [dot_phase]
        simp only [dot_phase]
        rfl
      rw [e1, hdot]
      congr 1
      · rw [dot_sum, dot_sum]
        simp only [dot_sum]
        simp only [Finset.sum_mul]
        rw [Finset.sum_comm]
        refine Finset.sum_congr rfl fun i hi => ?_
        rw [← dot_sum, hdot]
        have hi' := Finset.mem_range.mp hi
        have e0 : dot N (fun l => A' i (N + l)) (fun l => β (N + l)) = 0 := by
          rw [dot_sum]
          refine Finset.sum_eq_zero fun l hl => ?_
          rw [(hblk i hi' l (Finset.mem_range.mp hl)).1, zero_mul]
        rw [e0, add_zero, dot_sum, Finset.mul_sum]
        exact Finset.sum_congr rfl fun j _ => by ring
      · rw [dot_sum, dot_sum]
        simp only [dot_sum]
        simp only [Finset.sum_mul, map_sum, map_mul]
        rw [Finset.sum_comm]
        refine Finset.sum_congr rfl fun i hi => ?_
        rw [← dot_sum, hdot]
        have hi' := Finset.mem_range.mp hi
        have e0 : dot N (A' (N + i)) β = 0 := by
          rw [dot_sum]
          refine Finset.sum_eq_zero fun l hl => ?_
          rw [(hblk i hi' l (Finset.mem_range.mp hl)).2, zero_mul]
        rw [e0, zero_add, dot_sum, Finset.mul_sum, hβc i hi']
        refine Finset.sum_congr rfl fun j hj => ?_
        have hj' := Finset.mem_range.mp hj
        rw [(hAc i hi' j hj').1, hβc j hj']
        ring
    rw [hq]
    unfold pureExp
    rw [← hβ, map_mul, map_sub, Complex.conj_ofReal]
    have : (starRingEnd ℂ) (-(1 / 2) : ℂ) = -(1 / 2) := by
      rw [show (-(1 / 2) : ℂ) = ((-(1 / 2) : ℝ) : ℂ) by push_cast; ring, Complex.conj_ofReal]
    rw [this]
    ring
  refine ⟨A', γ, hA, hAs, hγ1, fun k hk => hγ0 k (by omega), ?_⟩
  have hfun : (fun i j => psiFn N mu cov hbar A' γ i * (starRingEnd ℂ) (psiFn N mu cov hbar A' γ j)) = rhoMat N mu cov hbar A' γ := by
    funext i j
    rw [hρ, repeatedIndices_append, lh_append_zero, lh_map, List.length_ofFn]
    · have e1 : lh (γ ∘ (N + ·)) (fun a b => A' (N + a) (N + b)) (repeatedIndices (List.ofFn i)) = (starRingEnd ℂ) (lh γ A' (repeatedIndices (List.ofFn i))) := by
        rw [lh_ringHom]
        have hlt : ∀ x ∈ repeatedIndices (List.ofFn i), x < N := fun x hx => by have := repeatedIndices_lt hx; simpa using this
        exact lh_congr (fun x hx => hγ2 x (hlt x hx)) fun x hx y hy => (hAc x (hlt x hx) y (hlt y hy)).1
      rw [e1, hpre]
      unfold psiFn
      rw [map_div₀, map_mul, starRingEnd_self_apply, ← Complex.exp_conj, starRingEnd_self_apply, Complex.conj_ofReal,
        Real.sqrt_mul (Finset.prod_nonneg fun _ _ => Nat.cast_nonneg _)]
      have hs : ((Real.sqrt (Wmat N cov hbar).det : ℝ) : ℂ) =
          ((Real.sqrt (Real.sqrt (Wmat N cov hbar).det) : ℝ) : ℂ) * ((Real.sqrt (Real.sqrt (Wmat N cov hbar).det) : ℝ) : ℂ) := by
        rw [← Complex.ofReal_mul, Real.mul_self_sqrt (Real.sqrt_nonneg _)]
      rw [hs]
      push_cast
      ring
    · intro x hx y hy
      obtain ⟨z, hz, rfl⟩ := List.mem_map.mp hy
      have hx' : x < N := by have := repeatedIndices_lt hx; simpa using this
      have hz' : z < N := by have := repeatedIndices_lt hz; simpa using this
      rw [List.length_ofFn]
      exact (hblk x hx' z hz').1
  rw [hfun]
  exact hF

theorem half_conj : (starRingEnd ℂ) (-(1 / 2) : ℂ) = -(1 / 2) := by
  rw [show (-(1 / 2) : ℂ) = ((-(1 / 2) : ℝ) : ℂ) by push_cast; ring, Complex.conj_ofReal]

theorem norm2_half (mu : ℕ → ℝ) (hh : 0 < hbar) : norm2 N (complexToReal N mu hbar) = Real.sqrt ((∑ i ∈ Finset.range (2 * N), mu i ^ 2) / (2 * hbar)) := by
  unfold norm2
  congr 1
  rw [dot_sum, ← sum_quad N fun i => mu i ^ 2, Fintype.sum_sum_type, ← Finset.sum_add_distrib, Finset.sum_div,
    Finset.sum_range fun k => ‖complexToReal N mu hbar k‖ * ‖complexToReal N mu hbar k‖]
  refine Finset.sum_congr rfl fun k _ => ?_
  have h1 := (complexToReal_entries N mu hbar k k.2).1
  rw [h1, norm_div, Complex.norm_real, Real.norm_of_nonneg (Real.sqrt_nonneg _), div_mul_div_comm, Complex.norm_mul_self_eq_normSq,
    Real.mul_self_sqrt (by positivity), Complex.normSq_apply]
  simp only [amp, quad, Sum.elim_inl, Sum.elim_inr]
  congr 1
  ring

/-- the value returned by `pure_state_amplitude`, with and without the prefactor -/
theorem psa_value (hN : N ≠ 0) (closeR : ℝ → ℝ → Bool) (mu : ℕ → ℝ) (tol atol : ℝ) (hh : 0 < hbar) (hdet : 0 < (Wmat N cov hbar).det)
    (hsym : ∀ i < 2 * N, ∀ j < 2 * N, cov i j = cov j i) (checkPurity : Bool)
    (hcp : checkPurity = true → Checks.isPureCov closeR (2 * N) (2 * N) cov hbar atol = true)
    (htol : (∀ i < 2 * N, mu i = 0) ∨ tol ≤ Real.sqrt ((∑ i ∈ Finset.range (2 * N), mu i ^ 2) / (2 * hbar)))
    (A : ℕ → ℕ → ℂ) (γ : ℕ → ℂ) (hA : Amat N cov hbar = .ok A) (hAs : ∀ i < 2 * N, ∀ j < 2 * N, A i j = A j i)
    (hγ : ∀ k < N, γ k = (starRingEnd ℂ) (complexToReal N mu hbar k) - dot N (A k) (complexToReal N mu hbar))
    (hγ0 : ∀ k < N, (∀ i < 2 * N, mu i = 0) → γ k = 0) (b : Bool) (n : Fin N → ℕ) :
    pureStateAmplitude (isClose 0 0) closeR N mu cov (List.ofFn n) b tol hbar atol checkPurity =
      .ok (if b then psiFn N mu cov hbar A γ n else psiFn N mu cov hbar A γ n / Complex.exp ((starRingEnd ℂ) (pureExp N mu hbar A))) := by
  unfold pureStateAmplitude
  rw [if_neg (by
    rcases checkPurity with _ | _
    · simp
    · simp [hcp rfl])]
  simp only [bind, Except.bind, pure, Except.pure]
  rw [hA]
  simp only
  have hlt : ∀ x ∈ repeatedIndices (List.ofFn n), x < N := fun x hx => by have := repeatedIndices_lt hx; simpa using this
  rw [hafTerm_correct N _ (fun i hi j hj => by rw [hAs i (by omega) j (by omega)]) _ _ (by simp) hN]
  simp only
  have e1 : lh ((if norm2 N (complexToReal N mu hbar) < tol then none else
      some fun k => complexToReal N mu hbar k - dot N (fun j => (starRingEnd ℂ) (A k j)) fun l => (starRingEnd ℂ) (complexToReal N mu hbar l)).getD fun _ => 0)
      (fun i j => (starRingEnd ℂ) (A i j)) (repeatedIndices (List.ofFn n)) = (starRingEnd ℂ) (lh γ A (repeatedIndices (List.ofFn n))) := by
    rw [lh_ringHom]
    refine lh_congr (fun x hx => ?_) fun _ _ _ _ => rfl
    have hx' := hlt x hx
    split_ifs with h
    · rw [norm2_half mu hh] at h
      rcases htol with h0 | h0
      · simp [hγ0 x hx' h0]
      · exact absurd h (not_lt.mpr h0)
    · simp only [Option.getD_some]
      rw [hγ x hx', map_sub, starRingEnd_self_apply, dot_sum, dot_sum, map_sum]
      simp only [map_mul]
  rw [e1]
  have hQ : (toMatrix (2 * N) (2 * N) (Qmat N cov hbar)).det = ((Wmat N cov hbar).det : ℝ) := by rw [← phase_det, det_Q hsym hh]
  have hf0 : 0 ≤ ((List.ofFn n).map fun k => (k.factorial : ℝ)).prod := by
    rw [List.map_ofFn, List.prod_ofFn]
    exact Finset.prod_nonneg fun _ _ => Nat.cast_nonneg _
  have hden : Tor.csqrt (((((List.ofFn n).map fun k => (k.factorial : ℝ)).prod : ℝ) : ℂ) * Tor.csqrt (toMatrix (2 * N) (2 * N) (Qmat N cov hbar)).det) =
      ((Real.sqrt (Real.sqrt (Wmat N cov hbar).det) * Real.sqrt (∏ k, ((n k).factorial : ℝ)) : ℝ) : ℂ) := by
    rw [hQ, csqrt_ofReal _ hdet.le, ← Complex.ofReal_mul, csqrt_ofReal _ (mul_nonneg hf0 (Real.sqrt_nonneg _)), Real.sqrt_mul hf0, List.map_ofFn, List.prod_ofFn, mul_comm]
    rfl
  rw [hden]
  have hexp : -(1 / 2) * (((norm2 N (complexToReal N mu hbar) ^ 2 : ℝ) : ℂ) - dot N (fun j => dot N (fun i => (starRingEnd ℂ) (complexToReal N mu hbar i))
      fun i => (starRingEnd ℂ) (A i j)) fun j => (starRingEnd ℂ) (complexToReal N mu hbar j)) = (starRingEnd ℂ) (pureExp N mu hbar A) := by
    unfold pureExp
    rw [map_mul, map_sub, half_conj, Complex.conj_ofReal]
    simp only [dot_sum, map_sum, map_mul]
  rw [hexp]
  congr 1
  unfold psiFn
  rcases b with _ | _
  · simp only [Bool.false_eq_true, if_false, mul_one]
    have := Complex.exp_ne_zero ((starRingEnd ℂ) (pureExp N mu hbar A))
    field_simp
  · simp only [if_true]
    rw [mul_comm]

/-- the value of the tensor computed by `state_vector` -/
theorem sva_value {sjunk : ℕ → ℂ} (mu : ℕ → ℝ) (hh : 0 < hbar) (hdet : 0 < (Wmat N cov hbar).det) (hsym : ∀ i < 2 * N, ∀ j < 2 * N, cov i j = cov j i)
    (A : ℕ → ℕ → ℂ) (γ g : ℕ → ℂ) (hAs : ∀ i < 2 * N, ∀ j < 2 * N, A i j = A j i) (hg : ∀ k < N, g k = γ k) (cutoff : ℕ) (hc : 0 < cutoff) (hc2 : cutoff ≤ 1000) :
    ∃ T, stateVectorAll (sqrtTable sjunk) (isClose 0 0) N (Qmat N cov hbar) A g (Complex.exp ((starRingEnd ℂ) (pureExp N mu hbar A))) cutoff none = .ok T ∧
      ∀ n : Fin N → ℕ, (∀ k, n k < cutoff) → T (List.ofFn n) = psiFn N mu cov hbar A γ n := by
  obtain ⟨T, hT, hTv⟩ := hermite_lh (sjunk := sjunk) (close := isClose 0 0) (isClose_refl le_rfl le_rfl) (n := N) (fun i j => (starRingEnd ℂ) (A i j))
    (fun a ha b hb => by rw [hAs a (by omega) b (by omega)]) (some fun k => (starRingEnd ℂ) (g k)) cutoff hc hc2
  have e : (PyObj.arr N N fun i j => some ((starRingEnd ℂ) (A i j))) = PyObj.ofMatrix (toMatrix N N fun i j => (starRingEnd ℂ) (A i j)) fun i j => some ((starRingEnd ℂ) (A i j)) := by
    unfold PyObj.ofMatrix
    congr 1
    funext i j
    split_ifs <;> rfl
  have hiv := inputValidation_ok (isClose 0 0) (isClose_refl le_rfl le_rfl) (toMatrix N N fun i j => (starRingEnd ℂ) (A i j))
    (by ext i j; exact congrArg (starRingEnd ℂ) (hAs j (by omega) i (by omega))) fun i j => some ((starRingEnd ℂ) (A i j))
  rw [← e] at hiv
  refine ⟨fun idx => Complex.exp ((starRingEnd ℂ) (pureExp N mu hbar A)) * T idx / ((Real.sqrt (Real.sqrt (Wmat N cov hbar).det) : ℝ) : ℂ), ?_, fun n hn => ?_⟩
  · unfold stateVectorAll
    simp only [bind, Except.bind, pure, Except.pure]
    have hb : hafnianBatched (sqrtTable sjunk) (isClose 0 0) (isClose 0 0) (.arr N N fun i j => some ((starRingEnd ℂ) (A i j))) (List.replicate N cutoff)
        (some (N, fun i => (starRingEnd ℂ) (g i))) true true = .ok (.tensor (List.replicate N cutoff) T) := by
      unfold hafnianBatched
      simp only [bind, Except.bind, pure, Except.pure]
      rw [hiv]
      exact hT
    rw [hb]
    simp only
    rw [← phase_det, det_Q hsym hh, Complex.ofReal_re]
    rfl
  · simp only
    rw [hTv n hn]
    unfold psiFn sqrtFact
    have e : lh ((some fun k => (starRingEnd ℂ) (g k)).getD fun _ => 0) (fun i j => (starRingEnd ℂ) (A i j)) (repeatedIndices (List.ofFn n)) =
        (starRingEnd ℂ) (lh γ A (repeatedIndices (List.ofFn n))) := by
      rw [lh_ringHom]
      refine lh_congr (fun x hx => ?_) fun _ _ _ _ => rfl
      have hx' : x < N := by have := repeatedIndices_lt hx; simpa using this
      simp [hg x hx']
    rw [e]
    push_cast
    ring

theorem svp_value (hN : N ≠ 0) (closeR : ℝ → ℝ → Bool) (mu : ℕ → ℝ) (atol : ℝ) (hh : 0 < hbar) (hdet : 0 < (Wmat N cov hbar).det)
    (hsym : ∀ i < 2 * N, ∀ j < 2 * N, cov i j = cov j i)
    (htol : (∀ i < 2 * N, mu i = 0) ∨ (1 / 10 ^ 10 : ℝ) ≤ Real.sqrt ((∑ i ∈ Finset.range (2 * N), mu i ^ 2) / (2 * hbar)))
    (A : ℕ → ℕ → ℂ) (γ : ℕ → ℂ) (hA : Amat N cov hbar = .ok A) (hAs : ∀ i < 2 * N, ∀ j < 2 * N, A i j = A j i)
    (hγ : ∀ k < N, γ k = (starRingEnd ℂ) (complexToReal N mu hbar k) - dot N (A k) (complexToReal N mu hbar))
    (hγ0 : ∀ k < N, (∀ i < 2 * N, mu i = 0) → γ k = 0)
    (post : List (ℕ × ℕ)) (hnd : (post.map Prod.fst).Nodup) (hlt : ∀ p ∈ post, p.1 < N) (cutoff : ℕ) :
    ∃ T, stateVectorPost (isClose 0 0) closeR N mu cov (Complex.exp ((starRingEnd ℂ) (pureExp N mu hbar A))) post cutoff hbar atol = .ok T ∧
      ∀ n : Fin N → ℕ, Selects post n → (∀ m ∈ freeModes N post, n m < cutoff) → T ((freeModes N post).map n) = psiFn N mu cov hbar A γ n := by
  have hM : N - post.length = (freeModes N post).length := by have := freeModes_length post hnd hlt; omega
  have hle : ¬ post.length > N := by have := freeModes_length post hnd hlt; omega
  set E := Complex.exp ((starRingEnd ℂ) (pureExp N mu hbar A)) with hE
  have hE0 : E ≠ 0 := Complex.exp_ne_zero _
  have hstep : ∀ idx ∈ ndindex (List.replicate (freeModes N post).length cutoff),
      ((fillEl post idx (List.range N) 0).bind fun el => pureStateAmplitude (isClose 0 0) closeR N mu cov el false (1 / 10 ^ 10) hbar atol false) =
        .ok (psiFn N mu cov hbar A γ (fillFn N post idx) / E) := by
    intro idx hidx
    rw [mem_ndindex_replicate] at hidx
    have hf := fillEl_single post _ (fillFn_selects (N := N) post hnd idx)
    rw [fillFn_free post idx hidx.1] at hf
    rw [hf]
    simp only [Except.bind]
    rw [psa_value hN closeR mu _ atol hh hdet hsym false (by simp) htol A γ hA hAs hγ hγ0]
    rfl
  obtain ⟨T, hT, hTv, -⟩ := foldlM_update _ (fun idx => idx) _ (fun idx => psiFn N mu cov hbar A γ (fillFn N post idx) / E) hstep (fun a _ b _ h => by rw [h]) fun _ => 0
  refine ⟨fun idx => T idx * E, ?_, fun n hs hn => ?_⟩
  · unfold stateVectorPost
    rw [if_neg hle, hM]
    simp only [bind, pure, Except.pure]
    have hf : (fun (psi : MArr ℂ) (idx : List ℕ) => (fillEl post idx (List.range N) 0).bind fun el =>
        (pureStateAmplitude (isClose 0 0) closeR N mu cov el false (1 / 10 ^ 10) hbar atol false).bind fun a =>
          (Except.ok (Function.update psi idx a) : Except PyErr (MArr ℂ))) =
        fun (T : MArr ℂ) (idx : List ℕ) => ((fillEl post idx (List.range N) 0).bind fun el =>
          pureStateAmplitude (isClose 0 0) closeR N mu cov el false (1 / 10 ^ 10) hbar atol false).bind fun a => Except.ok (Function.update T idx a) := by
      funext psi idx
      rcases fillEl post idx (List.range N) 0 with err | el <;> rfl
    rw [hf, hT]
    rfl
  · have h1 := hTv ((freeModes N post).map n) (by
      rw [mem_ndindex_replicate]
      refine ⟨by simp, fun x hx => ?_⟩
      obtain ⟨m, hm, rfl⟩ := List.mem_map.mp hx
      exact hn m hm)
    simp only at h1 ⊢
    rw [h1, fillFn_map post n hs, div_mul_cancel₀ _ hE0]

theorem freeModes_nil : freeModes N [] = List.finRange N := by
  unfold freeModes
  simp

/-- **C71** For every pure Gaussian state (physical, unit purity) there are amplitudes `ψ` with `⟨i|ρ|j⟩ = ψ(i) conj ψ(j)` such that
`pure_state_amplitude` returns `ψ(n)`; `state_vector` returns the tensor of the amplitudes below the cutoff, with post-selection those with the given
occupation numbers, at the indices of the remaining modes, and divides by their norm if `normalize=True`. -/
theorem pureState_correct {sjunk : ℕ → ℂ} (hN : N ≠ 0) (closeR : ℝ → ℝ → Bool) (mu : ℕ → ℝ) (cov : ℕ → ℕ → ℝ) (hbar tol atol : ℝ) (hh : 0 < hbar)
    (hph : Physical (phase N N cov) hbar) (hpure : ((2 / hbar) • phase N N cov).det = 1) (checkPurity : Bool)
    (hcp : checkPurity = true → Checks.isPureCov closeR (2 * N) (2 * N) cov hbar atol = true)
    (htol : (∀ i < 2 * N, mu i = 0) ∨ max tol (1 / 10 ^ 10) ≤ Real.sqrt ((∑ i ∈ Finset.range (2 * N), mu i ^ 2) / (2 * hbar))) :
    ∃ ψ : (Fin N → ℕ) → ℂ, (IsFockMatrix N mu cov hbar fun i j => ψ i * (starRingEnd ℂ) (ψ j)) ∧
      (∀ n, pureStateAmplitude (isClose 0 0) closeR N mu cov (List.ofFn n) true tol hbar atol checkPurity = .ok (ψ n)) ∧
      ∀ (post : Option (List (ℕ × ℕ))) (normalize : Bool) (cutoff : ℕ), ((post.getD []).map Prod.fst).Nodup → (∀ p ∈ post.getD [], p.1 < N) → 0 < cutoff → cutoff ≤ 1000 →
        ∃ T, stateVector (sqrtTable sjunk) (isClose 0 0) closeR N mu cov post normalize cutoff hbar atol checkPurity none = .ok T ∧
        ∀ n : Fin N → ℕ, Selects (post.getD []) n → (∀ m ∈ freeModes N (post.getD []), n m < cutoff) →
          T ((freeModes N (post.getD [])).map n) =
            if normalize then ψ n / (Real.sqrt (∑ k ∈ selected N (post.getD []) cutoff, ‖ψ k‖ ^ 2) : ℝ) else ψ n := by
  have hsym := physical_sym hph
  have hdet := det_W_pos hph hh
  obtain ⟨A, γ, hA, hAs, hγ, hγ0, hF⟩ := pure_setup mu hh hph hpure
  refine ⟨psiFn N mu cov hbar A γ, hF, fun n => ?_, fun post normalize cutoff hnd hlt hc hc2 => ?_⟩
  · rw [psa_value hN closeR mu tol atol hh hdet hsym checkPurity hcp (htol.imp_right fun h => (le_max_left _ _).trans h) A γ hA hAs hγ hγ0 true n]
    rfl
  · have hinner : ∃ T, (match post with
          | none => stateVectorAll (sqrtTable sjunk) (isClose 0 0) N (Qmat N cov hbar) A
              (fun k => (starRingEnd ℂ) (complexToReal N mu hbar k) - dot N (A k) (complexToReal N mu hbar)) (Complex.exp ((starRingEnd ℂ) (pureExp N mu hbar A))) cutoff none
          | some post => stateVectorPost (isClose 0 0) closeR N mu cov (Complex.exp ((starRingEnd ℂ) (pureExp N mu hbar A))) post cutoff hbar atol) = .ok T ∧
        ∀ n : Fin N → ℕ, Selects (post.getD []) n → (∀ m ∈ freeModes N (post.getD []), n m < cutoff) →
          T ((freeModes N (post.getD [])).map n) = psiFn N mu cov hbar A γ n := by
      rcases post with _ | post
      · obtain ⟨T, hT, hTv⟩ := sva_value (sjunk := sjunk) mu hh hdet hsym A γ
          (fun k => (starRingEnd ℂ) (complexToReal N mu hbar k) - dot N (A k) (complexToReal N mu hbar)) hAs (fun k hk => (hγ k hk).symm) cutoff hc hc2
        refine ⟨T, hT, fun n _ hn => ?_⟩
        simp only [Option.getD_none, freeModes_nil] at hn ⊢
        rw [← List.ofFn_eq_map]
        exact hTv n fun k => hn k (List.mem_finRange k)
      · exact svp_value hN closeR mu atol hh hdet hsym (htol.imp_right fun h => (le_max_right _ _).trans h) A γ hA hAs hγ hγ0 post hnd hlt cutoff
    obtain ⟨T, hT, hTv⟩ := hinner
    have hlen : N - (post.map List.length).getD 0 = (freeModes N (post.getD [])).length := by
      have := freeModes_length (post.getD []) hnd hlt
      rcases post with _ | post
      · simp only [Option.map_none, Option.getD_none, List.length_nil] at this ⊢; omega
      · simp only [Option.map_some, Option.getD_some] at this ⊢; omega
    have hsum : Real.sqrt (((ndindex (List.replicate (freeModes N (post.getD [])).length cutoff)).map fun idx => ‖T idx‖ ^ 2).sum) =
        Real.sqrt (∑ k ∈ selected N (post.getD []) cutoff, ‖psiFn N mu cov hbar A γ k‖ ^ 2) := by
      rw [trace_sum (N := N) _ hnd]
      congr 1
      refine Finset.sum_congr rfl fun k hk => ?_
      rw [mem_selected _ hnd] at hk
      rw [hTv k hk.1 hk.2]
    refine ⟨if normalize then fun idx => T idx / ((Real.sqrt (∑ k ∈ selected N (post.getD []) cutoff, ‖psiFn N mu cov hbar A γ k‖ ^ 2) : ℝ) : ℂ) else T, ?_, ?_⟩
    · unfold stateVector
      rw [if_neg (by
        rcases checkPurity with _ | _
        · simp
        · simp [hcp rfl])]
      simp only [bind, pure, Except.pure]
      rw [hA, show ∀ f : (ℕ → ℕ → ℂ) → Except PyErr (MArr ℂ), (Except.ok A).bind f = f A from fun f => rfl]
      have hT' := hT
      unfold pureExp at hT'
      rw [hlen]
      rcases post with _ | post
      · dsimp only at hT' ⊢
        rw [hT', show ∀ f : MArr ℂ → Except PyErr (MArr ℂ), (Except.ok T).bind f = f T from fun f => rfl, hsum]
        rcases normalize with _ | _ <;> rfl
      · dsimp only at hT' ⊢
        rw [hT', show ∀ f : MArr ℂ → Except PyErr (MArr ℂ), (Except.ok T).bind f = f T from fun f => rfl, hsum]
        rcases normalize with _ | _ <;> rfl
    · intro n hs hn
      rcases normalize with _ | _
      · exact hTv n hs hn
      · simp only [if_true]
        rw [hTv n hs hn]

/-- **C71** with the purity check on, and exact comparisons, a state that is not pure raises `ValueError`. -/
theorem pureState_raises (sq : ℕ → ℂ) (close : ℂ → ℂ → Bool) (closeR : ℝ → ℝ → Bool) (hc : ∀ x y, closeR x y = true ↔ x = y) (mu : ℕ → ℝ) (cov : ℕ → ℕ → ℝ) (hbar : ℝ)
    (h : ¬ (Physical (phase N N cov) hbar ∧ ((2 / hbar) • phase N N cov).det = 1)) :
    (∀ rpt inc tol, pureStateAmplitude close closeR N mu cov rpt inc tol hbar 0 true = .error .valueError) ∧
    ∀ post normalize cutoff choi, stateVector sq close closeR N mu cov post normalize cutoff hbar 0 true choi = .error .valueError := by
  have hp : Checks.isPureCov closeR (2 * N) (2 * N) cov hbar 0 = false := by
    rw [← Bool.not_eq_true, isPureCov_exact closeR hc]
    rintro ⟨-, M, hM, h1⟩
    obtain rfl : N = M := by omega
    exact h h1
  constructor
  · intro rpt inc tol
    unfold pureStateAmplitude
    rw [if_pos (by simp [hp])]
    rfl
  · intro post normalize cutoff choi
    unfold stateVector
    rw [if_pos (by simp [hp])]
    rfl

/-- the hypotheses of `pureState_correct` hold for the coherent state with amplitude `i`, the default tolerance and the purity check -/
example : ∃ ψ : (Fin 1 → ℕ) → ℂ, (IsFockMatrix 1 cohMu (vacuumState 1 2).cov 2 fun i j => ψ i * (starRingEnd ℂ) (ψ j)) ∧
    ∀ n, pureStateAmplitude (isClose 0 0) (fun x y => decide (x = y)) 1 cohMu (vacuumState 1 2).cov (List.ofFn n) true (1 / 10 ^ 10) 2 0 true = .ok (ψ n) := by
  have hph := (physical_vacuum 1 2 (by norm_num)).1
  have hpure : ((2 / 2 : ℝ) • phase 1 1 (vacuumState 1 (2 : ℝ)).cov).det = 1 := by rw [phase_vacuum]; norm_num
  obtain ⟨ψ, h1, h2, -⟩ := pureState_correct (N := 1) (sjunk := fun _ => 0) (by norm_num) (fun x y => decide (x = y)) cohMu (vacuumState 1 2).cov 2 (1 / 10 ^ 10) 0 (by norm_num) hph hpure true
    (fun _ => (isPureCov_exact _ (by simp) _ _ _ _).mpr ⟨rfl, 1, rfl, hph, hpure⟩)
    (Or.inr (by
      rw [max_self]
      apply Real.le_sqrt_of_sq_le
      simp only [Nat.mul_one, Finset.sum_range_succ, Finset.sum_range_zero, cohMu]
      norm_num))
  exact ⟨ψ, h1, h2⟩

end Verif.Props
