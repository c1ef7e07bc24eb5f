/-
C48: the Williamson decomposition and the symplectic eigenvalues.
-/
import Verif.Props.Iwasawa
import Verif.Props.GaussianChecks

set_option linter.unusedSectionVars false
set_option linter.unusedSimpArgs false

namespace Verif.Props
open Verif.Model Verif.Model.Symp Verif.Model.Dec Verif.Model.Checks Verif.Spec Verif.Lemmas Verif.Lemmas.Symp Matrix
open scoped ComplexOrder

/-- a real matrix is positive definite over `ℝ` iff over `ℂ` -/
theorem real_posDef_map {n : Type*} [Fintype n] [DecidableEq n] (M : Matrix n n ℝ) : (M.map Complex.ofReal).PosDef ↔ M.PosDef := by
  have hdet : (M.map Complex.ofReal).det = ((M.det : ℝ) : ℂ) := by
    have := RingHom.map_det Complex.ofRealHom M
    exact this.symm
  constructor
  · intro h
    have h1 : M.PosSemidef := (real_posSemidef_map M).mp h.posSemidef
    rw [h1.posDef_iff_det_ne_zero]
    intro h0
    have := h.det_pos
    rw [hdet, h0] at this
    simp at this
  · intro h
    have h1 : (M.map Complex.ofReal).PosSemidef := (real_posSemidef_map M).mpr h.posSemidef
    rw [h1.posDef_iff_det_ne_zero, hdet]
    exact_mod_cast h.det_pos.ne'

/-- the eigenvalue test of `williamson`, on a symmetric matrix, is positive definiteness -/
theorem allPosEig_iff (n : ℕ) (V : RArr) (h : (toMatrix n n V).IsSymm) : allPosEig n V = true ↔ (toMatrix n n V).PosDef := by
  unfold allPosEig
  rw [decide_eq_true_eq, ← (lowerHerm_isHermitian n fun i j => (V i j : ℂ)).posDef_iff_eigenvalues_pos, lowerHerm_eq]
  · have : toMatrix n n (fun i j => (V i j : ℂ)) = (toMatrix n n V).map Complex.ofReal := rfl
    rw [this, real_posDef_map]
  · ext i j
    have := congrFun (congrFun h i) j
    simp only [transpose_apply, toMatrix, of_apply] at this
    simp [toMatrix, conjTranspose_apply, this]

/-- a tridiagonal antisymmetric invertible matrix in which no two adjacent subdiagonal entries are both non-zero is a direct sum of `2 × 2` blocks -/
theorem tridiagonal_pairs (N : ℕ) (T : RArr) (ha : ∀ i < 2 * N, ∀ j < 2 * N, T j i = -T i j) (h0 : ∀ i < 2 * N, ∀ j, j + 1 < i → T i j = 0)
    (h1 : ∀ i, i + 2 < 2 * N → T (i + 1) i = 0 ∨ T (i + 2) (i + 1) = 0) (hrow : ∀ i < 2 * N, ∃ j < 2 * N, T i j ≠ 0) :
    ∀ k < N, T (2 * k) (2 * k + 1) ≠ 0 ∧ (2 * k + 2 < 2 * N → T (2 * k + 1) (2 * k + 2) = 0) := by
  have hdiag : ∀ i < 2 * N, T i i = 0 := fun i hi => by have := ha i hi i hi; linarith
  have hup : ∀ i j, i + 1 < j → j < 2 * N → T i j = 0 := fun i j h hj => by
    rw [ha j hj i (by omega), h0 j hj i h, neg_zero]
  intro k
  induction k with
  | zero =>
    intro hk
    have hne : T (2 * 0) (2 * 0 + 1) ≠ 0 := by
      obtain ⟨j, hj, hT⟩ := hrow 0 (by omega)
      rcases Nat.lt_trichotomy j 1 with h | h | h
      · have : j = 0 := by omega
        subst this; exact absurd (hdiag 0 (by omega)) hT
      · subst h; exact hT
      · exact absurd (hup 0 j (by omega) hj) hT
    refine ⟨hne, fun h2 => ?_⟩
    rcases h1 0 (by omega) with h | h
    · have := ha 0 (by omega) 1 (by omega)
      exfalso; apply hne; simp only [mul_zero, zero_add] at *; linarith
    · have := ha 1 (by omega) 2 (by omega)
      simp only [mul_zero, zero_add] at *; linarith
  | succ k ih =>
    intro hk
    have hi := (ih (by omega)).2 (by omega)
    have hne : T (2 * (k + 1)) (2 * (k + 1) + 1) ≠ 0 := by
      obtain ⟨j, hj, hT⟩ := hrow (2 * (k + 1)) (by omega)
      rcases Nat.lt_trichotomy j (2 * (k + 1)) with h | h | h
      · by_cases h' : j + 1 < 2 * (k + 1)
        · exact absurd (h0 _ (by omega) j h') hT
        · have : j = 2 * k + 1 := by omega
          subst this
          exfalso; apply hT
          rw [ha (2 * k + 1) (by omega) (2 * (k + 1)) (by omega), show 2 * (k + 1) = 2 * k + 2 by ring, hi, neg_zero]
      · subst h; exact absurd (hdiag _ (by omega)) hT
      · by_cases h' : 2 * (k + 1) + 1 < j
        · exact absurd (hup _ j h' hj) hT
        · have : j = 2 * (k + 1) + 1 := by omega
          subst this; exact hT
    refine ⟨hne, fun h2 => ?_⟩
    rcases h1 (2 * (k + 1)) (by omega) with h | h
    · have := ha (2 * (k + 1)) (by omega) (2 * (k + 1) + 1) (by omega)
      exfalso; apply hne; linarith
    · have := ha (2 * (k + 1) + 1) (by omega) (2 * (k + 1) + 2) (by omega)
      linarith

/-- what the loop that builds the permutation computes -/
theorem swapPerm_eq (N : ℕ) (a : RArr) (k : ℕ) (hk : k < N) :
    swapPerm N a (2 * k) = (if a (2 * k) (2 * k + 1) ≤ 0 then 2 * k + 1 else 2 * k) ∧
      swapPerm N a (2 * k + 1) = (if a (2 * k) (2 * k + 1) ≤ 0 then 2 * k else 2 * k + 1) := by
  have key := forRange_inv (fun m (p : ℕ → ℕ) => ∀ k, (k < m → p (2 * k) = (if a (2 * k) (2 * k + 1) ≤ 0 then 2 * k + 1 else 2 * k) ∧
      p (2 * k + 1) = (if a (2 * k) (2 * k + 1) ≤ 0 then 2 * k else 2 * k + 1)) ∧ (m ≤ k → p (2 * k) = 2 * k ∧ p (2 * k + 1) = 2 * k + 1)) N (fun i => i)
    (fun i perm => if a (2 * i) (2 * i + 1) ≤ 0 then Function.update (Function.update perm (2 * i) (perm (2 * i + 1))) (2 * i + 1) (perm (2 * i)) else perm)
    (fun k => ⟨fun h => absurd h (Nat.not_lt_zero _), fun _ => ⟨rfl, rfl⟩⟩) (fun m p _ ih k => by
      obtain ⟨i1, i2⟩ := ih k
      obtain ⟨m1, m2⟩ := (ih m).2 le_rfl
      by_cases hkm : k = m
      · subst hkm
        refine ⟨fun _ => ?_, fun h => by omega⟩
        split_ifs with h
        · rw [Function.update_of_ne (by omega), Function.update_self, Function.update_self]; exact ⟨m2, m1⟩
        · exact ⟨m1, m2⟩
      · have e1 : (if a (2 * m) (2 * m + 1) ≤ 0 then Function.update (Function.update p (2 * m) (p (2 * m + 1))) (2 * m + 1) (p (2 * m)) else p) (2 * k) = p (2 * k) := by
          split_ifs
          · rw [Function.update_of_ne (by omega), Function.update_of_ne (by omega)]
          · rfl
        have e2 : (if a (2 * m) (2 * m + 1) ≤ 0 then Function.update (Function.update p (2 * m) (p (2 * m + 1))) (2 * m + 1) (p (2 * m)) else p) (2 * k + 1) =
            p (2 * k + 1) := by
          split_ifs
          · rw [Function.update_of_ne (by omega), Function.update_of_ne (by omega)]
          · rfl
        refine ⟨fun h => ?_, fun h => ?_⟩
        · rw [e1, e2]; exact i1 (by omega)
        · rw [e1, e2]; exact i2 (by omega))
  exact (key k).1 hk

/-- the matrix identities behind the Williamson decomposition -/
theorem williamson_core {l : Type*} [Fintype l] [DecidableEq l] (V M O : Matrix (l ⊕ l) (l ⊕ l) ℝ) (φ : l → ℝ) (hM : M.PosDef) (hMV : M * M = V)
    (hO : O * Oᵀ = 1) (hφ : ∀ i, 0 < φ i) (hG : Oᵀ * (M⁻¹ * -J l ℝ * M⁻¹) * O = fromBlocks 0 (diagonal φ) (-diagonal φ) 0) :
    let s : l ⊕ l → ℝ := Sum.elim (fun i => Real.sqrt (φ i)) fun i => Real.sqrt (φ i)
    let S := M * O * diagonal s
    S * diagonal (Sum.elim (fun i => 1 / φ i) fun i => 1 / φ i) * Sᵀ = V ∧ S ∈ symplecticGroup l ℝ := by
  intro s S
  have hsym : Mᵀ = M := by have := hM.1; rwa [IsHermitian, conjTranspose_eq_transpose_of_trivial] at this
  have hu : IsUnit M.det := isUnit_iff_ne_zero.mpr hM.det_pos.ne'
  have hi1 : M * M⁻¹ = 1 := mul_nonsing_inv _ hu
  have hi2 : M⁻¹ * M = 1 := nonsing_inv_mul _ hu
  have hO' : Oᵀ * O = 1 := mul_eq_one_comm.mp hO
  have hSt : Sᵀ = diagonal s * Oᵀ * M := by
    simp only [S]; rw [transpose_mul, transpose_mul, diagonal_transpose, hsym]; simp only [Matrix.mul_assoc]
  have hsq : ∀ i, Real.sqrt (φ i) * Real.sqrt (φ i) = φ i := fun i => Real.mul_self_sqrt (hφ i).le
  constructor
  · have e : diagonal s * diagonal (Sum.elim (fun i => 1 / φ i) fun i => 1 / φ i) * diagonal s = 1 := by
      rw [diagonal_mul_diagonal, diagonal_mul_diagonal, ← diagonal_one]
      congr 1; funext p
      rcases p with p | p <;> simp only [s, Sum.elim_inl, Sum.elim_inr] <;>
      · rw [mul_right_comm, hsq, mul_one_div_cancel (hφ p).ne']
    rw [hSt]; simp only [S]
    calc M * O * diagonal s * diagonal (Sum.elim (fun i => 1 / φ i) fun i => 1 / φ i) * (diagonal s * Oᵀ * M)
        = M * (O * (diagonal s * diagonal (Sum.elim (fun i => 1 / φ i) fun i => 1 / φ i) * diagonal s) * Oᵀ) * M := by simp only [Matrix.mul_assoc]
      _ = V := by rw [e, Matrix.mul_one, hO, Matrix.mul_one, hMV]
  · have hJJ : J l ℝ * J l ℝ = -1 := J_squared l ℝ
    -- the inverse of the middle matrix
    have hinv : (Oᵀ * (M * J l ℝ * M) * O) * (Oᵀ * (M⁻¹ * -J l ℝ * M⁻¹) * O) = 1 := by
      calc (Oᵀ * (M * J l ℝ * M) * O) * (Oᵀ * (M⁻¹ * -J l ℝ * M⁻¹) * O) = Oᵀ * (M * J l ℝ * M) * (O * Oᵀ) * (M⁻¹ * -J l ℝ * M⁻¹) * O := by simp only [Matrix.mul_assoc]
        _ = Oᵀ * (M * J l ℝ * (M * M⁻¹) * -J l ℝ * M⁻¹) * O := by rw [hO, Matrix.mul_one]; simp only [Matrix.mul_assoc]
        _ = Oᵀ * (M * -(J l ℝ * J l ℝ) * M⁻¹) * O := by rw [hi1, Matrix.mul_one]; simp only [Matrix.mul_assoc, Matrix.mul_neg, Matrix.neg_mul]
        _ = 1 := by rw [hJJ, neg_neg, Matrix.mul_one, hi1, Matrix.mul_one, hO']
    have hφ1 : diagonal φ * diagonal (fun i => 1 / φ i) = 1 := by
      rw [diagonal_mul_diagonal, ← diagonal_one]; congr 1; funext i; rw [mul_one_div_cancel (hφ i).ne']
    have hG2 : (fromBlocks 0 (diagonal φ) (-diagonal φ) 0) * (fromBlocks 0 (-diagonal fun i => 1 / φ i) (diagonal fun i => 1 / φ i) 0) = (1 : Matrix (l ⊕ l) (l ⊕ l) ℝ) := by
      rw [fromBlocks_multiply, ← fromBlocks_one]
      simp only [Matrix.mul_zero, Matrix.zero_mul, zero_add, add_zero, Matrix.neg_mul, Matrix.mul_neg, neg_neg, neg_zero, hφ1]
    have hmid : Oᵀ * (M * J l ℝ * M) * O = fromBlocks 0 (-diagonal fun i => 1 / φ i) (diagonal fun i => 1 / φ i) 0 := by
      rw [hG] at hinv
      calc Oᵀ * (M * J l ℝ * M) * O = Oᵀ * (M * J l ℝ * M) * O * ((fromBlocks 0 (diagonal φ) (-diagonal φ) 0) *
            (fromBlocks 0 (-diagonal fun i => 1 / φ i) (diagonal fun i => 1 / φ i) 0)) := by rw [hG2, Matrix.mul_one]
        _ = _ := by rw [← Matrix.mul_assoc, hinv, Matrix.one_mul]
    rw [SymplecticGroup.mem_iff']
    rw [hSt]; simp only [S]
    calc diagonal s * Oᵀ * M * J l ℝ * (M * O * diagonal s) = diagonal s * (Oᵀ * (M * J l ℝ * M) * O) * diagonal s := by simp only [Matrix.mul_assoc]
      _ = J l ℝ := by
        have es : diagonal s = fromBlocks (diagonal fun i => Real.sqrt (φ i)) 0 0 (diagonal fun i => Real.sqrt (φ i)) := by rw [fromBlocks_diagonal]
        have e2 : (diagonal fun i => Real.sqrt (φ i)) * (diagonal fun i => 1 / φ i) * (diagonal fun i => Real.sqrt (φ i)) = (1 : Matrix l l ℝ) := by
          rw [diagonal_mul_diagonal, diagonal_mul_diagonal, ← diagonal_one]
          congr 1; funext p; rw [mul_right_comm, hsq, mul_one_div_cancel (hφ p).ne']
        rw [hmid, es, fromBlocks_multiply, fromBlocks_multiply, J]
        simp only [Matrix.mul_zero, Matrix.zero_mul, zero_add, add_zero, Matrix.neg_mul, Matrix.mul_neg, neg_neg, neg_zero, e2]

theorem phase_posDef (N : ℕ) (V : RArr) : (phase N N V).PosDef ↔ (toMatrix (2 * N) (2 * N) V).PosDef := by
  rw [phase_toMatrix]
  constructor
  · intro h
    have := PosDef.submatrix (e := (quadEquiv N).symm) h (quadEquiv N).symm.injective
    rw [submatrix_submatrix, Equiv.self_comp_symm, submatrix_id_id] at this
    exact this
  · intro h
    exact PosDef.submatrix (e := quadEquiv N) h (quadEquiv N).injective

/-- C48: for every positive definite real symmetric `V` of any even size, `williamson(V)` returns `(Db, S)` with `V = S Db Sᵀ`, `S` symplectic and
`Db = diag(d, d)` with `d > 0`. -/
theorem williamson_correct (sqrtm : ℕ → RArr → RArr) (hsq : SqrtmContract sqrtm) (schur : ℕ → RArr → RArr × RArr) (hsc : SchurContract schur)
    (close : ℝ → ℝ → Bool) (hc : ∀ x, close x x = true) (N : ℕ) (V : RArr) (hV : (phase N N V).PosDef) :
    ∃ D S, williamson sqrtm schur close (2 * N) (2 * N) V = .ok (D, S) ∧ phase N N S * phase N N D * (phase N N S)ᵀ = phase N N V ∧ IsSymp N S ∧
      ∃ d : Fin N → ℝ, (∀ i, 0 < d i) ∧ phase N N D = diagonal (Sum.elim d d) := by
  have hV' := (phase_posDef N V).mp hV
  have hsymm : (toMatrix (2 * N) (2 * N) V).IsSymm := by
    have := hV'.1; rw [IsHermitian, conjTranspose_eq_transpose_of_trivial] at this; exact this
  unfold williamson
  have hn : 2 * N / 2 = N := by omega
  have h2 : allClose2 close (2 * N) (2 * N) V (tr V) = true := by
    rw [allClose2_iff]; intro i hi j hj
    have := congrFun (congrFun hsymm ⟨i, hi⟩) ⟨j, hj⟩
    simp only [transpose_apply, toMatrix, of_apply] at this
    rw [tr, this]; exact hc _
  have h3 : 2 * N % 2 = 0 := by omega
  rw [if_neg (not_not.mpr rfl), if_neg (not_not.mpr h2), if_neg (not_not.mpr h3)]
  dsimp only
  rw [if_neg (not_not.mpr ((allPosEig_iff _ _ hsymm).mpr hV')), hn]
  obtain ⟨hMp, hMM⟩ := hsq (2 * N) V hV'
  obtain ⟨Mi, hMi, hMim⟩ := npInvR_ok (2 * N) (sqrtm (2 * N) V) hMp.det_pos.ne'
  set M := sqrtm (2 * N) V with hMdef
  simp only [bind, Except.bind, pure, Except.pure, hMi]
  set G := mmul (2 * N) (mmul (2 * N) Mi (sympmat N)) Mi with hGdef
  refine ⟨_, _, rfl, ?_⟩
  -- phase-space versions
  have hMpp : (phase N N M).PosDef := (phase_posDef N M).mpr hMp
  have hMV : phase N N M * phase N N M = phase N N V := by
    rw [phase_toMatrix, phase_toMatrix, submatrix_mul_equiv, hMM]
  have hMinv : phase N N Mi = (phase N N M)⁻¹ := by
    rw [phase_toMatrix, hMim, phase_toMatrix, inv_submatrix_equiv]
  have hG : phase N N G = (phase N N M)⁻¹ * -J (Fin N) ℝ * (phase N N M)⁻¹ := by
    rw [hGdef, phase_mmul N N N, phase_mmul N N N, hMinv, phase_sympmat]
  have hMsym : (phase N N M)⁻¹ᵀ = (phase N N M)⁻¹ := by
    rw [transpose_nonsing_inv]
    have := hMpp.1; rw [IsHermitian, conjTranspose_eq_transpose_of_trivial] at this; rw [this]
  have hGa : (phase N N G)ᵀ = -phase N N G := by
    rw [hG, transpose_mul, transpose_mul, hMsym, transpose_neg, J_transpose]
    simp only [Matrix.mul_assoc, Matrix.mul_neg, Matrix.neg_mul, neg_neg]
  have hGdet : (toMatrix (2 * N) (2 * N) G).det ≠ 0 := by
    rw [← phase_det, hG, det_mul, det_mul, det_nonsing_inv]
    have h1 : Ring.inverse (phase N N M).det ≠ 0 := by
      rw [Ring.inverse_eq_inv]; exact inv_ne_zero hMpp.det_pos.ne'
    refine mul_ne_zero (mul_ne_zero h1 ?_) h1
    have : (-J (Fin N) ℝ) * J (Fin N) ℝ = 1 := by rw [Matrix.neg_mul, J_squared, neg_neg]
    intro h0
    have := congrArg det this
    rw [det_mul, h0, zero_mul, det_one] at this
    exact zero_ne_one this
  have hGa' : (toMatrix (2 * N) (2 * N) G)ᵀ = -toMatrix (2 * N) (2 * N) G := by
    ext i j
    obtain ⟨p, rfl⟩ := (quadEquiv N).surjective i
    obtain ⟨q, rfl⟩ := (quadEquiv N).surjective j
    exact congrFun (congrFun hGa p) q
  obtain ⟨hZ, hT0, hT1, hTZ⟩ := hsc (2 * N) G hGa'
  set T := (schur (2 * N) G).1 with hTdef
  set Z := (schur (2 * N) G).2 with hZdef
  have hZZ : (toMatrix (2 * N) (2 * N) Z)ᵀ * toMatrix (2 * N) (2 * N) Z = 1 := (mem_orthogonalGroup_iff' (Fin (2 * N)) ℝ).mp hZ
  have hZZ' : toMatrix (2 * N) (2 * N) Z * (toMatrix (2 * N) (2 * N) Z)ᵀ = 1 := (mem_orthogonalGroup_iff (Fin (2 * N)) ℝ).mp hZ
  have hTG : toMatrix (2 * N) (2 * N) T = (toMatrix (2 * N) (2 * N) Z)ᵀ * toMatrix (2 * N) (2 * N) G * toMatrix (2 * N) (2 * N) Z := by
    rw [← hTZ]
    calc toMatrix (2 * N) (2 * N) T = ((toMatrix (2 * N) (2 * N) Z)ᵀ * toMatrix (2 * N) (2 * N) Z) * toMatrix (2 * N) (2 * N) T *
          ((toMatrix (2 * N) (2 * N) Z)ᵀ * toMatrix (2 * N) (2 * N) Z) := by rw [hZZ, Matrix.one_mul, Matrix.mul_one]
      _ = _ := by simp only [Matrix.mul_assoc]
  have hTa : (toMatrix (2 * N) (2 * N) T)ᵀ = -toMatrix (2 * N) (2 * N) T := by
    rw [hTG, transpose_mul, transpose_mul, transpose_transpose, hGa']
    simp only [Matrix.mul_assoc, Matrix.mul_neg, Matrix.neg_mul]
  have ha : ∀ i < 2 * N, ∀ j < 2 * N, T j i = -T i j := by
    intro i hi j hj
    have := congrFun (congrFun hTa ⟨i, hi⟩) ⟨j, hj⟩
    exact this
  have hTdet : (toMatrix (2 * N) (2 * N) T).det ≠ 0 := by
    rw [hTG, det_mul, det_mul, det_transpose]
    have : (toMatrix (2 * N) (2 * N) Z).det ≠ 0 := by
      intro h; have := congrArg det hZZ; rw [det_mul, h, mul_zero, det_one] at this; exact zero_ne_one this
    exact mul_ne_zero (mul_ne_zero this hGdet) this
  have hrow : ∀ i < 2 * N, ∃ j < 2 * N, T i j ≠ 0 := by
    intro i hi
    by_contra hcon
    push Not at hcon
    exact hTdet (det_eq_zero_of_row_eq_zero ⟨i, hi⟩ fun j => hcon j j.2)
  have hpairs := tridiagonal_pairs N T ha hT0 hT1 hrow
  have hperm := fun k hk => swapPerm_eq N T k hk
  set perm := swapPerm N T with hpermdef
  -- the column selection
  have hlt : ∀ p : Fin N ⊕ Fin N, (Sum.elim (fun k : Fin N => perm (2 * k)) (fun k : Fin N => perm (2 * k + 1)) p) < 2 * N := by
    rintro (p | p)
    · rw [Sum.elim_inl, (hperm p p.2).1]; have := p.2; split_ifs <;> omega
    · rw [Sum.elim_inr, (hperm p p.2).2]; have := p.2; split_ifs <;> omega
  let f : Fin N ⊕ Fin N → Fin (2 * N) := fun p => ⟨_, hlt p⟩
  have hf : Function.Injective f := by
    rintro (p | p) (q | q) h
    · have := congrArg Fin.val h
      simp only [f, Sum.elim_inl, (hperm p p.2).1, (hperm q q.2).1] at this
      congr 1; apply Fin.ext; split_ifs at this <;> omega
    · exfalso
      have := congrArg Fin.val h
      simp only [f, Sum.elim_inl, Sum.elim_inr, (hperm p p.2).1, (hperm q q.2).2] at this
      by_cases e : (p : ℕ) = q
      · rw [e] at this; split_ifs at this <;> omega
      · split_ifs at this <;> omega
    · exfalso
      have := congrArg Fin.val h
      simp only [f, Sum.elim_inl, Sum.elim_inr, (hperm p p.2).2, (hperm q q.2).1] at this
      by_cases e : (p : ℕ) = q
      · rw [e] at this; split_ifs at this <;> omega
      · split_ifs at this <;> omega
    · have := congrArg Fin.val h
      simp only [f, Sum.elim_inr, (hperm p p.2).2, (hperm q q.2).2] at this
      congr 1; apply Fin.ext; split_ifs at this <;> omega
  let e' : Fin N ⊕ Fin N ≃ Fin (2 * N) := Equiv.ofBijective f ⟨hf, by
    have := (Fintype.bijective_iff_injective_and_card f).mpr ⟨hf, by simp [two_mul]⟩
    exact this.2⟩
  set O : RArr := fun i j => Z i (if j < N then perm (2 * j) else perm (2 * (j - N) + 1)) with hO
  have hOphase : phase N N O = (toMatrix (2 * N) (2 * N) Z).submatrix (quadEquiv N) e' := by
    ext p q
    rcases q with q | q
    · simp only [phase, of_apply, hO, submatrix_apply, toMatrix, quad, Sum.elim_inl, q.2, if_true]; rfl
    · have : ¬ (N + (q : ℕ) < N) := by omega
      simp only [phase, of_apply, hO, submatrix_apply, toMatrix, quad, Sum.elim_inr, this, if_false, Nat.add_sub_cancel_left]; rfl
  have hOO : phase N N O * (phase N N O)ᵀ = 1 := by
    rw [hOphase, transpose_submatrix, submatrix_mul_equiv, hZZ', submatrix_one_equiv]
  have hOGO : (phase N N O)ᵀ * phase N N G * phase N N O = (toMatrix (2 * N) (2 * N) T).submatrix e' e' := by
    rw [hOphase, transpose_submatrix, phase_toMatrix, submatrix_mul_equiv, submatrix_mul_equiv, ← hTG]
  have hzero : ∀ k < N, ∀ m < N, k ≠ m → ∀ a < 2, ∀ b < 2, T (2 * k + a) (2 * m + b) = 0 := by
    have base : ∀ k < N, ∀ m < N, k < m → ∀ a < 2, ∀ b < 2, T (2 * k + a) (2 * m + b) = 0 := by
      intro k hk m hm hkm a ha' b hb
      by_cases hadj : 2 * k + a + 1 < 2 * m + b
      · rw [ha (2 * m + b) (by omega) (2 * k + a) (by omega), hT0 _ (by omega) _ hadj, neg_zero]
      · have h1 : m = k + 1 := by omega
        have h2 : a = 1 := by omega
        have h3 : b = 0 := by omega
        subst h1 h2 h3
        have := (hpairs k hk).2 (by omega)
        rw [show 2 * (k + 1) + 0 = 2 * k + 2 by ring]; exact this
    intro k hk m hm hkm a ha' b hb
    rcases Nat.lt_or_gt_of_ne hkm with h | h
    · exact base k hk m hm h a ha' b hb
    · rw [ha (2 * m + b) (by omega) (2 * k + a) (by omega), base m hm k hk h b hb a ha', neg_zero]
  let φ : Fin N → ℝ := fun i => |T (2 * i) (2 * i + 1)|
  have hφ : ∀ i, 0 < φ i := fun i => abs_pos.mpr (hpairs i i.2).1
  have hTφ : (toMatrix (2 * N) (2 * N) T).submatrix e' e' = fromBlocks 0 (diagonal φ) (-diagonal φ) 0 := by
    have hself : ∀ i < 2 * N, T i i = 0 := fun i hi => by have := ha i hi i hi; linarith
    have hform : ∀ p : Fin N, ∃ a < 2, ∃ b < 2, a ≠ b ∧ perm (2 * p) = 2 * p + a ∧ perm (2 * p + 1) = 2 * p + b ∧ T (2 * p + a) (2 * p + b) = φ p := by
      intro p
      obtain ⟨q1, q2⟩ := hperm p p.2
      have hne := (hpairs p p.2).1
      have hp2 := p.2
      by_cases h : T (2 * p) (2 * p + 1) ≤ 0
      · rw [if_pos h] at q1 q2
        refine ⟨1, by omega, 0, by omega, by omega, q1, q2, ?_⟩
        simp only [φ, add_zero]; rw [abs_of_nonpos h, ha (2 * p) (by omega) (2 * p + 1) (by omega)]
      · rw [if_neg h] at q1 q2
        refine ⟨0, by omega, 1, by omega, by omega, q1, q2, ?_⟩
        simp only [φ, add_zero]; rw [abs_of_nonneg (not_le.mp h).le]
    ext p q
    rcases p with p | p <;> rcases q with q | q <;> obtain ⟨a, ha', b, hb, hab, p1, p2, p3⟩ := hform p <;> obtain ⟨a', ha'', b', hb', hab', q1, q2, q3⟩ := hform q
    · have e : (toMatrix (2 * N) (2 * N) T).submatrix e' e' (Sum.inl p) (Sum.inl q) = T (perm (2 * p)) (perm (2 * q)) := rfl
      rw [e, fromBlocks_apply₁₁, Matrix.zero_apply]
      by_cases h : p = q
      · subst h; exact hself _ (by rw [p1]; have := p.2; omega)
      · rw [p1, q1]; exact hzero p p.2 q q.2 (fun h' => h (Fin.ext h')) a ha' a' ha''
    · have e : (toMatrix (2 * N) (2 * N) T).submatrix e' e' (Sum.inl p) (Sum.inr q) = T (perm (2 * p)) (perm (2 * q + 1)) := rfl
      rw [e, fromBlocks_apply₁₂]
      by_cases h : p = q
      · subst h; rw [diagonal_apply_eq, p1, p2]; exact p3
      · rw [diagonal_apply_ne _ h, p1, q2]; exact hzero p p.2 q q.2 (fun h' => h (Fin.ext h')) a ha' b' hb'
    · have e : (toMatrix (2 * N) (2 * N) T).submatrix e' e' (Sum.inr p) (Sum.inl q) = T (perm (2 * p + 1)) (perm (2 * q)) := rfl
      rw [e, fromBlocks_apply₂₁, Matrix.neg_apply]
      by_cases h : p = q
      · subst h; rw [diagonal_apply_eq, p1, p2, ha _ (by have := p.2; omega) _ (by have := p.2; omega), p3]
      · rw [diagonal_apply_ne _ h, neg_zero, p2, q1]; exact hzero p p.2 q q.2 (fun h' => h (Fin.ext h')) b hb a' ha''
    · have e : (toMatrix (2 * N) (2 * N) T).submatrix e' e' (Sum.inr p) (Sum.inr q) = T (perm (2 * p + 1)) (perm (2 * q + 1)) := rfl
      rw [e, fromBlocks_apply₂₂, Matrix.zero_apply]
      by_cases h : p = q
      · subst h; exact hself _ (by rw [p2]; have := p.2; omega)
      · rw [p2, q2]; exact hzero p p.2 q q.2 (fun h' => h (Fin.ext h')) b hb b' hb'
  obtain ⟨c1, c2⟩ := williamson_core (phase N N V) (phase N N M) (phase N N O) φ hMpp hMV hOO hφ (by rw [← hG, hOGO, hTφ])
  have eS : phase N N (fun i j => mmul (2 * N) M O i j * (1 / Real.sqrt (if j < N then 1 / |T (2 * j) (2 * j + 1)| else 1 / |T (2 * (j - N)) (2 * (j - N) + 1)|))) =
      phase N N M * phase N N O * diagonal (Sum.elim (fun i => Real.sqrt (φ i)) fun i => Real.sqrt (φ i)) := by
    rw [← phase_mmul N N N]
    have hss : ∀ x : ℝ, 1 / Real.sqrt (1 / x) = Real.sqrt x := fun x => by rw [one_div, one_div, Real.sqrt_inv, inv_inv]
    ext p q
    rw [mul_diagonal]
    rcases q with q | q
    · simp only [phase, of_apply, quad, Sum.elim_inl, q.2, if_true, hss]; rfl
    · have : ¬ (N + (q : ℕ) < N) := by omega
      simp only [phase, of_apply, quad, Sum.elim_inr, this, if_false, Nat.add_sub_cancel_left, hss]; rfl
  have eD : phase N N (fun i j => if i = j then (if i < N then 1 / |T (2 * i) (2 * i + 1)| else 1 / |T (2 * (i - N)) (2 * (i - N) + 1)|) else 0) =
      diagonal (Sum.elim (fun i => 1 / φ i) fun i => 1 / φ i) := by
    ext p q
    rcases p with p | p <;> rcases q with q | q
    · simp only [phase, quad, of_apply, diagonal_apply, Sum.elim_inl, Sum.inl.injEq, Fin.ext_iff, p.2, if_true]; rfl
    · have := p.2; simp [phase, quad, diagonal_apply]; omega
    · have := q.2; simp [phase, quad, diagonal_apply]; omega
    · simp only [phase, quad, of_apply, diagonal_apply, Sum.elim_inr, Sum.inr.injEq, Fin.ext_iff, add_right_inj, Nat.add_sub_cancel_left]
      have : ¬ (N + (p : ℕ) < N) := by omega
      simp only [this, if_false]; rfl
  unfold IsSymp
  rw [eS, eD]
  exact ⟨c1, c2, _, fun i => one_div_pos.mpr (hφ i), rfl⟩

/-- C48: in exact arithmetic `williamson` succeeds precisely on positive definite symmetric matrices of even size, and raises `ValueError` on everything else. -/
theorem williamson_raises (sqrtm : ℕ → RArr → RArr) (schur : ℕ → RArr → RArr × RArr) (close : ℝ → ℝ → Bool) (n m : ℕ) (V : RArr)
    (h : n ≠ m ∨ n % 2 ≠ 0 ∨ allClose2 close n n V (tr V) = false ∨ ((toMatrix n n V).IsSymm ∧ ¬ (toMatrix n n V).PosDef)) :
    williamson sqrtm schur close n m V = .error .valueError := by
  unfold williamson
  by_cases h1 : n = m
  · rw [if_neg (not_not.mpr h1)]
    by_cases h2 : allClose2 close n n V (tr V) = true
    · rw [if_neg (not_not.mpr h2)]
      by_cases h3 : n % 2 = 0
      · rw [if_neg (not_not.mpr h3)]
        dsimp only
        rcases h with h | h | h | ⟨hs, hp⟩
        · exact absurd h1 h
        · exact absurd h3 h
        · rw [h2] at h; exact absurd h (by decide)
        · rw [if_pos]; rwa [allPosEig_iff n V hs]
      · rw [if_pos h3]
    · rw [if_pos h2]
  · rw [if_pos h1]

/-- the characteristic polynomial of `ΩV` in terms of a Williamson form of `V` -/
theorem charpoly_omega_williamson {l : Type*} [Fintype l] [DecidableEq l] (S : Matrix (l ⊕ l) (l ⊕ l) ℝ) (d : l → ℝ) (hS : S ∈ symplecticGroup l ℝ) :
    ((-J l ℝ * (S * diagonal (Sum.elim d d) * Sᵀ)).map Complex.ofReal).charpoly =
      (∏ i, (Polynomial.X - Polynomial.C (Complex.I * (d i : ℂ)))) * ∏ i, (Polynomial.X - Polynomial.C (-(Complex.I * (d i : ℂ)))) := by
  have hmap : ∀ M : Matrix (l ⊕ l) (l ⊕ l) ℝ, (M.map Complex.ofReal).charpoly = M.charpoly.map Complex.ofRealHom := fun M => charpoly_map M Complex.ofRealHom
  have e1 : (-J l ℝ * (S * diagonal (Sum.elim d d) * Sᵀ)).charpoly = (-J l ℝ * diagonal (Sum.elim d d)).charpoly := by
    rw [← Matrix.mul_assoc, charpoly_mul_comm]
    congr 1
    have := SymplecticGroup.mem_iff'.mp hS
    calc Sᵀ * (-J l ℝ * (S * diagonal (Sum.elim d d))) = -(Sᵀ * J l ℝ * S) * diagonal (Sum.elim d d) := by
          simp only [Matrix.mul_assoc, Matrix.neg_mul, Matrix.mul_neg]
      _ = _ := by rw [this]
  rw [hmap, e1, ← hmap]
  let c : l → ℂ := fun i => (d i : ℂ)
  let P : Matrix (l ⊕ l) (l ⊕ l) ℂ := fromBlocks 1 1 (Complex.I • 1) (-(Complex.I • 1))
  let P' : Matrix (l ⊕ l) (l ⊕ l) ℂ := fromBlocks ((1 / 2 : ℂ) • 1) (-((1 / 2 * Complex.I : ℂ) • 1)) ((1 / 2 : ℂ) • 1) ((1 / 2 * Complex.I : ℂ) • 1)
  let E : Matrix (l ⊕ l) (l ⊕ l) ℂ := diagonal (Sum.elim (fun i => Complex.I * c i) fun i => -(Complex.I * c i))
  have hPP : P' * P = 1 := by
    simp only [P, P']
    rw [fromBlocks_multiply, ← fromBlocks_one]
    have hI : (1 / 2 * Complex.I) * Complex.I = -(1 / 2) := by rw [mul_assoc, Complex.I_mul_I]; ring
    congr 1 <;> simp only [Matrix.mul_one, Matrix.smul_mul, Matrix.one_mul, Matrix.neg_mul, Matrix.mul_neg, smul_smul, hI, neg_neg] <;> module
  have hM : (-J l ℝ * diagonal (Sum.elim d d)).map Complex.ofReal = P * (E * P') := by
    have e2 : (-J l ℝ * diagonal (Sum.elim d d)).map Complex.ofReal = fromBlocks 0 (diagonal c) (-diagonal c) 0 := by
      rw [J, ← fromBlocks_diagonal, fromBlocks_neg, fromBlocks_multiply, fromBlocks_map]
      congr 1 <;> ext i j <;> simp [diagonal_apply, c] <;> split_ifs <;> simp
    have e3 : E = fromBlocks (Complex.I • diagonal c) 0 0 (-(Complex.I • diagonal c)) := by
      simp only [E]
      rw [← fromBlocks_diagonal]
      congr 1 <;> ext i j <;> by_cases h : i = j <;> simp [diagonal_apply, h]
    rw [e2, e3]
    simp only [P, P']
    rw [fromBlocks_multiply, fromBlocks_multiply]
    have hI : Complex.I * Complex.I = -1 := Complex.I_mul_I
    have hI2 : ∀ x : ℂ, Complex.I * (1 / 2 * Complex.I) * x = -(1 / 2) * x := fun x => by linear_combination (1 / 2) * x * hI
    simp only [Matrix.one_mul, Matrix.mul_one, Matrix.zero_mul, Matrix.mul_zero, add_zero, zero_add, Matrix.smul_mul, Matrix.mul_smul, Matrix.neg_mul, Matrix.mul_neg,
      smul_smul, neg_neg, smul_neg, smul_zero]
    congr 1
    · ext i j; simp only [Matrix.add_apply, Matrix.smul_apply, Matrix.neg_apply, Matrix.zero_apply, smul_eq_mul]; ring
    · ext i j; simp only [Matrix.add_apply, Matrix.smul_apply, Matrix.neg_apply, Matrix.zero_apply, smul_eq_mul]; linear_combination (diagonal c i j) * hI
    · ext i j; simp only [Matrix.add_apply, Matrix.smul_apply, Matrix.neg_apply, Matrix.zero_apply, smul_eq_mul]; linear_combination (-(diagonal c i j)) * hI
    · ext i j; simp only [Matrix.add_apply, Matrix.smul_apply, Matrix.neg_apply, Matrix.zero_apply, smul_eq_mul]; ring
  rw [hM, charpoly_mul_comm, Matrix.mul_assoc, hPP, Matrix.mul_one]
  rw [charpoly_diagonal, Fintype.prod_sum_type]
  simp [c]

/-- C48: for every positive definite `V` with Williamson form `S diag(d, d) Sᵀ` (`S` symplectic, `d > 0`), `symplectic_eigenvals(V)` returns the numbers `d`, in some order. -/
theorem symplecticEigenvals_correct (eigvals : ℕ → RArr → ℕ → ℂ) (he : EigvalsContract eigvals) (N : ℕ) (V : RArr) (S : Matrix (Fin N ⊕ Fin N) (Fin N ⊕ Fin N) ℝ)
    (d : Fin N → ℝ) (hS : S ∈ symplecticGroup (Fin N) ℝ) (hd : ∀ i, 0 < d i) (hV : phase N N V = S * diagonal (Sum.elim d d) * Sᵀ) :
    (symplecticEigenvals eigvals (2 * N) V).Perm ((List.ofFn d).map Complex.ofReal) := by
  unfold symplecticEigenvals
  have hn : 2 * N / 2 = N := by omega
  have hn' : (2 * N + 1) / 2 = N := by omega
  simp only [hn, hn']
  obtain ⟨hchar, pairs, hp1, hp2, hp3⟩ := he (2 * N) (mmul (2 * N) (sympmat N) V)
  set ev := eigvals (2 * N) (mmul (2 * N) (sympmat N) V) with hev
  have e1 : ((toMatrix (2 * N) (2 * N) (mmul (2 * N) (sympmat N) V)).map Complex.ofReal).charpoly =
      ((-J (Fin N) ℝ * (S * diagonal (Sum.elim d d) * Sᵀ)).map Complex.ofReal).charpoly := by
    rw [← hV, ← phase_sympmat, ← phase_mmul N N N, phase_toMatrix]
    rw [← charpoly_reindex (quadEquiv N).symm]
    rfl
  rw [e1, charpoly_omega_williamson S d hS] at hchar
  -- the eigenvalues as a multiset
  have hms : (Multiset.range (2 * N)).map ev = (Finset.univ : Finset (Fin N)).val.map (fun i => Complex.I * (d i : ℂ)) + (Finset.univ : Finset (Fin N)).val.map (fun i => -(Complex.I * (d i : ℂ))) := by
    have h1 := Polynomial.roots_multiset_prod_X_sub_C ((Multiset.range (2 * N)).map ev)
    have h2 := Polynomial.roots_multiset_prod_X_sub_C ((Finset.univ : Finset (Fin N)).val.map (fun i => Complex.I * (d i : ℂ)) + (Finset.univ : Finset (Fin N)).val.map (fun i => -(Complex.I * (d i : ℂ))))
    rw [← h1, ← h2]
    congr 1
    rw [Multiset.map_add, Multiset.prod_add, Multiset.map_map, Multiset.map_map, Multiset.map_map]
    exact hchar.symm
  have him : ∀ i < 2 * N, (ev i).im ≠ 0 := by
    intro i hi
    have : ev i ∈ (Multiset.range (2 * N)).map ev := Multiset.mem_map_of_mem _ (Multiset.mem_range.mpr hi)
    rw [hms, Multiset.mem_add, Multiset.mem_map, Multiset.mem_map] at this
    rcases this with ⟨k, _, hk⟩ | ⟨k, _, hk⟩
    · rw [← hk]; simp [(hd k).ne']
    · rw [← hk]; simp [(hd k).ne']
  have hsep : ∀ i ∈ pairs, i + 1 ∉ pairs := by
    intro i hi hi'
    have hsym : Std.Symm fun i j : ℕ => i + 1 < j ∨ j + 1 < i := ⟨fun i j h => h.symm⟩
    have := hp3.forall hi hi' (by omega)
    omega
  have hpar : ∀ k < N, 2 * k ∈ pairs := by
    intro k
    induction k with
    | zero =>
      intro hk
      rcases hp1 0 (by omega) with h | h | ⟨j, _, h⟩
      · exact absurd h (him 0 (by omega))
      · exact h
      · omega
    | succ k ih =>
      intro hk
      have h0 := ih (by omega)
      rcases hp1 (2 * (k + 1)) (by omega) with h | h | ⟨j, hj, h⟩
      · exact absurd h (him _ (by omega))
      · exact h
      · have : j = 2 * k + 1 := by omega
        subst this; exact absurd hj (hsep _ h0)
  have heven : ∀ k < N, 0 < (ev (2 * k)).im ∧ (ev (2 * k + 1)).im < 0 := by
    intro k hk
    obtain ⟨_, h2, h3⟩ := hp2 _ (hpar k hk)
    exact ⟨h2, by rw [h3]; simpa using h2⟩
  -- the eigenvalues of positive imaginary part
  have hfilter := congrArg (Multiset.filter fun z : ℂ => 0 < z.im) hms
  have hf1 : Multiset.filter (fun z : ℂ => 0 < z.im) ((Multiset.range (2 * N)).map ev) = (Multiset.range N).map fun k => ev (2 * k) := by
    have hsplit : ∀ M ≤ N, Multiset.filter (fun z : ℂ => 0 < z.im) ((Multiset.range (2 * M)).map ev) = (Multiset.range M).map fun k => ev (2 * k) := by
      intro M
      induction M with
      | zero => intro _; simp
      | succ M ih =>
        intro hM
        obtain ⟨g1, g2⟩ := heven M (by omega)
        rw [show 2 * (M + 1) = 2 * M + 1 + 1 by ring, Multiset.range_succ, Multiset.range_succ, Multiset.map_cons, Multiset.map_cons,
          Multiset.filter_cons_of_neg (p := fun z : ℂ => 0 < z.im) _ (not_lt.mpr g2.le), Multiset.filter_cons_of_pos (p := fun z : ℂ => 0 < z.im) _ g1, ih (by omega), Multiset.range_succ, Multiset.map_cons]
    exact hsplit N le_rfl
  have hf2 : Multiset.filter (fun z : ℂ => 0 < z.im) ((Finset.univ : Finset (Fin N)).val.map (fun i => Complex.I * (d i : ℂ)) +
      (Finset.univ : Finset (Fin N)).val.map (fun i => -(Complex.I * (d i : ℂ)))) = (Finset.univ : Finset (Fin N)).val.map (fun i => Complex.I * (d i : ℂ)) := by
    rw [Multiset.filter_add, Multiset.filter_eq_self.mpr, Multiset.filter_eq_nil.mpr, add_zero]
    · intro z hz
      obtain ⟨k, _, rfl⟩ := Multiset.mem_map.mp hz
      simpa using (hd k).le
    · intro z hz
      obtain ⟨k, _, rfl⟩ := Multiset.mem_map.mp hz
      simpa using hd k
  rw [hf1, hf2] at hfilter
  rw [← Multiset.coe_eq_coe]
  have h3 := congrArg (Multiset.map fun z : ℂ => -Complex.I * z) hfilter
  rw [Multiset.map_map, Multiset.map_map] at h3
  have g1 : ((List.range N).map fun i => -Complex.I * ev (2 * i) : Multiset ℂ) = (Multiset.range N).map ((fun z : ℂ => -Complex.I * z) ∘ fun k => ev (2 * k)) := rfl
  rw [g1, h3]
  have g2 : ((fun z : ℂ => -Complex.I * z) ∘ fun i : Fin N => Complex.I * (d i : ℂ)) = fun i => (d i : ℂ) := by
    funext i; simp only [Function.comp]; rw [← mul_assoc, neg_mul, Complex.I_mul_I]; ring
  rw [g2, List.map_ofFn]
  rw [Fin.univ_val_map]
  rfl

end Verif.Props
