/-
C48: the Autonne-Takagi decomposition.
-/
import Verif.Props.Williamson
import Mathlib.Analysis.SpecialFunctions.Pow.Complex

set_option linter.unusedSectionVars false
set_option linter.unusedSimpArgs false

namespace Verif.Props
open Verif.Model Verif.Model.Symp Verif.Model.Dec Verif.Model.Checks Verif.Spec Verif.Lemmas Verif.Lemmas.Symp Matrix
open scoped ComplexOrder

/-- The contracts of the routines called by `takagi`, with elementwise tests that are exact comparisons. -/
structure TakagiContract (lib : TakagiLib) : Prop where
  eigh : EighContract lib.eigh
  argsort : ArgsortContract lib.argsort
  svd : SvdContract lib.svd
  sqrtm : SqrtmUnitaryContract lib.sqrtm
  tiny : ∀ x, lib.tiny x = true ↔ x = 0
  closeZ : ∀ x y, lib.closeZ x y = true ↔ x = y
  closeD : ∀ x y, lib.closeD x y = true ↔ x = y

/-- reordering the columns and the values by the same permutation keeps the factorisation -/
theorem takagi_perm (n : ℕ) (r : ℕ → ℝ) (U : CArr) (π : ℕ → ℕ) (hlt : ∀ i < n, π i < n) (hinj : ∀ i < n, ∀ j < n, π i = π j → i = j)
    (hU : toMatrix n n U ∈ unitaryGroup (Fin n) ℂ) :
    toMatrix n n (fun i j => U i (π j)) ∈ unitaryGroup (Fin n) ℂ ∧
      toMatrix n n (fun i j => U i (π j)) * diagonal (fun i : Fin n => ((r (π i) : ℝ) : ℂ)) * (toMatrix n n fun i j => U i (π j))ᵀ =
        toMatrix n n U * diagonal (fun i : Fin n => ((r i : ℝ) : ℂ)) * (toMatrix n n U)ᵀ := by
  let f : Fin n → Fin n := fun i => ⟨π i, hlt i i.2⟩
  have hf : Function.Injective f := fun i j h => Fin.ext (hinj i i.2 j j.2 (congrArg Fin.val h))
  let e : Fin n ≃ Fin n := Equiv.ofBijective f (Finite.injective_iff_bijective.mp hf)
  have h1 : toMatrix n n (fun i j => U i (π j)) = (toMatrix n n U).submatrix (Equiv.refl _) e := rfl
  have h2 : diagonal (fun i : Fin n => ((r (π i) : ℝ) : ℂ)) = (diagonal fun i : Fin n => ((r i : ℝ) : ℂ)).submatrix e e := by
    rw [submatrix_diagonal_equiv]; rfl
  rw [h1, h2]
  constructor
  · rw [mem_unitaryGroup_iff, star_eq_conjTranspose, conjTranspose_submatrix, submatrix_mul_equiv]
    have := mem_unitaryGroup_iff.mp hU
    rw [star_eq_conjTranspose] at this
    rw [this, submatrix_one_equiv]
  · rw [transpose_submatrix, submatrix_mul_equiv, submatrix_mul_equiv]; rfl

theorem rev_lt (n : ℕ) : ∀ i < n, n - 1 - i < n := fun i hi => by omega

theorem rev_inj (n : ℕ) : ∀ i < n, ∀ j < n, n - 1 - i = n - 1 - j → i = j := fun i hi j hj h => by omega

theorem csqrt_sign (x : ℝ) : Tor.csqrt ((if 0 ≤ x then (-1 : ℝ) ^ 2 else (-1) ^ 1 : ℝ) : ℂ) = if 0 ≤ x then 1 else Complex.I := by
  unfold Tor.csqrt
  split_ifs with h
  · norm_num
  · have : (((-1 : ℝ) ^ 1 : ℝ) : ℂ) = -1 := by push_cast; ring
    rw [this, Complex.cpow_def_of_ne_zero (by norm_num), Complex.log_neg_one]
    rw [show (Real.pi : ℂ) * Complex.I * (1 / 2) = Real.pi / 2 * Complex.I by ring, Complex.exp_pi_div_two_mul_I]

/-- the real branch -/
theorem takagiReal_correct (lib : TakagiLib) (hl : TakagiContract lib) (n : ℕ) (A : RArr) (hA : (toMatrix n n A).IsSymm) (desc : Bool) :
    IsTakagi n desc (fun i j => (A i j : ℂ)) (takagiReal lib n A desc).1 (takagiReal lib n A desc).2 := by
  obtain ⟨hU, _, hUA⟩ := hl.eigh n A hA
  obtain ⟨p1, p2, p3⟩ := hl.argsort n fun i => |(lib.eigh n A).1 i|
  set w := (lib.eigh n A).1 with hw
  set U := (lib.eigh n A).2 with hUdef
  set π : ℕ → ℕ := if desc then fun i => lib.argsort n (fun i => |w i|) (n - 1 - i) else lib.argsort n fun i => |w i| with hπ
  have q1 : ∀ i < n, π i < n := by
    intro i hi; rw [hπ]; split_ifs
    · exact p1 _ (rev_lt n i hi)
    · exact p1 _ hi
  have q2 : ∀ i < n, ∀ j < n, π i = π j → i = j := by
    intro i hi j hj h; rw [hπ] at h; split_ifs at h
    · exact rev_inj n i hi j hj (p2 _ (rev_lt n i hi) _ (rev_lt n j hj) h)
    · exact p2 i hi j hj h
  have q3 : ∀ i j, i ≤ j → j < n → if desc then |w (π j)| ≤ |w (π i)| else |w (π i)| ≤ |w (π j)| := by
    intro i j hij hj
    cases desc
    · exact p3 i j hij hj
    · exact p3 (n - 1 - j) (n - 1 - i) (by omega) (by omega)
  let ph : ℕ → ℂ := fun i => if 0 ≤ w i then 1 else Complex.I
  let Uc : CArr := fun i j => (U i j : ℂ) * ph j
  have hval : takagiReal lib n A desc = (fun i => |w (π i)|, fun i j => Uc i (π j)) := by
    unfold takagiReal
    simp only [csqrt_sign]
    rfl
  have hUc : toMatrix n n Uc = (toMatrix n n U).map Complex.ofReal * diagonal fun i : Fin n => ph i := by
    ext i j; rw [mul_diagonal]; rfl
  have hUm : (toMatrix n n U).map Complex.ofReal * ((toMatrix n n U).map Complex.ofReal)ᵀ = 1 := by
    have : toMatrix n n U * (toMatrix n n U)ᵀ = 1 := (mem_orthogonalGroup_iff (Fin n) ℝ).mp hU
    have h2 := congrArg (fun M : Matrix (Fin n) (Fin n) ℝ => M.map Complex.ofRealHom) this
    simp only [Matrix.map_mul] at h2
    have h3 : (1 : Matrix (Fin n) (Fin n) ℝ).map Complex.ofRealHom = 1 := Matrix.map_one _ (map_zero _) (map_one _)
    rw [h3] at h2; exact h2
  have hUU : toMatrix n n Uc ∈ unitaryGroup (Fin n) ℂ := by
    rw [mem_unitaryGroup_iff, star_eq_conjTranspose, hUc, conjTranspose_mul, diagonal_conjTranspose]
    have e1 : ((toMatrix n n U).map Complex.ofReal)ᴴ = ((toMatrix n n U).map Complex.ofReal)ᵀ := by
      ext i j; simp [conjTranspose_apply]
    have e2 : (diagonal fun i : Fin n => ph i) * diagonal (star fun i : Fin n => ph i) = 1 := by
      rw [diagonal_mul_diagonal, ← diagonal_one]; congr 1; funext i
      simp only [ph, Pi.star_apply]; split_ifs <;> simp
    calc (toMatrix n n U).map Complex.ofReal * (diagonal fun i : Fin n => ph i) * (diagonal (star fun i : Fin n => ph i) * ((toMatrix n n U).map Complex.ofReal)ᴴ)
        = (toMatrix n n U).map Complex.ofReal * ((diagonal fun i : Fin n => ph i) * diagonal (star fun i : Fin n => ph i)) * ((toMatrix n n U).map Complex.ofReal)ᴴ := by
          simp only [Matrix.mul_assoc]
      _ = 1 := by rw [e2, Matrix.mul_one, e1, hUm]
  rw [hval]
  obtain ⟨t1, t2⟩ := takagi_perm n (fun i => |w i|) Uc π q1 q2 hUU
  refine ⟨t1, fun i _ => abs_nonneg _, q3, ?_⟩
  rw [t2, hUc, transpose_mul, diagonal_transpose]
  have e3 : (diagonal fun i : Fin n => ph i) * (diagonal fun i : Fin n => ((|w i| : ℝ) : ℂ)) * (diagonal fun i : Fin n => ph i) = diagonal fun i : Fin n => ((w i : ℝ) : ℂ) := by
    rw [diagonal_mul_diagonal, diagonal_mul_diagonal]; congr 1; funext i
    simp only [ph]; split_ifs with h
    · rw [abs_of_nonneg h]; ring
    · rw [abs_of_neg (not_le.mp h)]; push_cast; linear_combination (-(w i : ℂ)) * Complex.I_mul_I
  have e4 : toMatrix n n (fun i j => (A i j : ℂ)) = (toMatrix n n A).map Complex.ofRealHom := rfl
  rw [e4, ← hUA, Matrix.map_mul, Matrix.map_mul, diagonal_map (map_zero _)]
  calc (toMatrix n n U).map Complex.ofReal * (diagonal fun i : Fin n => ph i) * (diagonal fun i : Fin n => ((|w i| : ℝ) : ℂ)) *
        ((diagonal fun i : Fin n => ph i) * ((toMatrix n n U).map Complex.ofReal)ᵀ)
      = (toMatrix n n U).map Complex.ofReal * ((diagonal fun i : Fin n => ph i) * (diagonal fun i : Fin n => ((|w i| : ℝ) : ℂ)) * (diagonal fun i : Fin n => ph i)) *
        ((toMatrix n n U).map Complex.ofReal)ᵀ := by simp only [Matrix.mul_assoc]
    _ = _ := by rw [e3]; rfl

theorem aeval_semiconj {n : Type*} [Fintype n] [DecidableEq n] (D X X' : Matrix n n ℂ) (h : D * X = X' * D) (p : Polynomial ℂ) :
    D * Polynomial.aeval X p = Polynomial.aeval X' p * D := by
  have hk : ∀ k : ℕ, D * X ^ k = X' ^ k * D := by
    intro k
    induction k with
    | zero => simp
    | succ k ih => rw [pow_succ, ← Matrix.mul_assoc, ih, Matrix.mul_assoc, h, ← Matrix.mul_assoc, ← pow_succ]
  induction p using Polynomial.induction_on' with
  | add p q hp hq => rw [map_add, map_add, Matrix.mul_add, Matrix.add_mul, hp, hq]
  | monomial k a =>
    rw [Polynomial.aeval_monomial, Polynomial.aeval_monomial, ← Algebra.smul_def, ← Algebra.smul_def, Matrix.mul_smul, hk, Matrix.smul_mul]

theorem aeval_transpose {n : Type*} [Fintype n] [DecidableEq n] (X : Matrix n n ℂ) (p : Polynomial ℂ) : (Polynomial.aeval X p)ᵀ = Polynomial.aeval Xᵀ p := by
  induction p using Polynomial.induction_on' with
  | add p q hp hq => rw [map_add, map_add, transpose_add, hp, hq]
  | monomial k a => rw [Polynomial.aeval_monomial, Polynomial.aeval_monomial, ← Algebra.smul_def, ← Algebra.smul_def, transpose_smul, transpose_pow]

/-- the singular value branch: the matrix identity -/
theorem takagi_svd_core (n : ℕ) (A u v W : Matrix (Fin n) (Fin n) ℂ) (d : Fin n → ℝ) (hA : Aᵀ = A) (hu : u ∈ unitaryGroup (Fin n) ℂ) (hv : v ∈ unitaryGroup (Fin n) ℂ)
    (hd : ∀ i, 0 ≤ d i) (hsvd : u * diagonal (fun i => (d i : ℂ)) * v = A) (hWW : W * W = (v * u.map (starRingEnd ℂ))ᵀ)
    (hW : ∃ p : Polynomial ℂ, W = Polynomial.aeval (v * u.map (starRingEnd ℂ))ᵀ p) :
    u * W * diagonal (fun i => (d i : ℂ)) * (u * W)ᵀ = A := by
  set D := diagonal (fun i => (d i : ℂ)) with hD
  set Y := v * u.map (starRingEnd ℂ) with hY
  have hDt : Dᵀ = D := diagonal_transpose _
  have hDh : Dᴴ = D := by rw [hD, diagonal_conjTranspose]; congr 1; funext i; simp
  have huu : uᴴ * u = 1 := mem_unitaryGroup_iff'.mp hu
  have hvv : v * vᴴ = 1 := mem_unitaryGroup_iff.mp hv
  have hub : uᵀ * u.map (starRingEnd ℂ) = 1 := by
    have := congrArg Matrix.transpose huu
    rw [transpose_mul, transpose_one] at this
    exact this
  have hbu : u.map (starRingEnd ℂ) * uᵀ = 1 := mul_eq_one_comm.mp hub
  -- `D Y = Yᵀ D`
  have h1 : D * Y = Yᵀ * D := by
    have e1 : uᴴ * A * u.map (starRingEnd ℂ) = D * Y := by
      rw [← hsvd, hY]
      calc uᴴ * (u * D * v) * u.map (starRingEnd ℂ) = (uᴴ * u) * D * (v * u.map (starRingEnd ℂ)) := by simp only [Matrix.mul_assoc]
        _ = _ := by rw [huu, Matrix.one_mul]
    have e2 : uᴴ * Aᵀ * u.map (starRingEnd ℂ) = (D * Y)ᵀ := by
      rw [← e1, transpose_mul, transpose_mul]
      have : (u.map (starRingEnd ℂ))ᵀ = uᴴ := rfl
      rw [this]
      have : uᴴᵀ = u.map (starRingEnd ℂ) := rfl
      rw [this, Matrix.mul_assoc]
    rw [← e1, ← hA, e2, transpose_mul, hDt]
  -- `Y` commutes with `D²`, hence with `D`
  have h2 : Y * (D * D) = (D * D) * Y := by
    have hAh : Aᴴ = vᴴ * D * uᴴ := by
      rw [← hsvd, conjTranspose_mul, conjTranspose_mul, hDh, Matrix.mul_assoc]
    have e1 : Aᴴ * A = vᴴ * (D * D) * v := by
      rw [hAh, ← hsvd]
      calc vᴴ * D * uᴴ * (u * D * v) = vᴴ * D * (uᴴ * u) * D * v := by simp only [Matrix.mul_assoc]
        _ = _ := by rw [huu, Matrix.mul_one]; simp only [Matrix.mul_assoc]
    have e2 : A * Aᴴ = u * (D * D) * uᴴ := by
      rw [hAh, ← hsvd]
      calc u * D * v * (vᴴ * D * uᴴ) = u * D * (v * vᴴ) * D * uᴴ := by simp only [Matrix.mul_assoc]
        _ = _ := by rw [hvv, Matrix.mul_one]; simp only [Matrix.mul_assoc]
    have e3 : Aᴴ * A = u.map (starRingEnd ℂ) * (D * D) * uᵀ := by
      have : (A * Aᴴ)ᵀ = Aᴴ * A := by
        rw [transpose_mul, hA]; congr 1
        have : Aᴴᵀ = Aᵀᴴ := rfl
        rw [this, hA]
      have h5 : uᴴᵀ = u.map (starRingEnd ℂ) := rfl
      rw [← this, e2, transpose_mul, transpose_mul, transpose_mul, hDt, h5]; simp only [Matrix.mul_assoc]
    rw [e1] at e3
    calc Y * (D * D) = v * (u.map (starRingEnd ℂ) * (D * D) * uᵀ) * u.map (starRingEnd ℂ) := by
          rw [hY]
          calc v * u.map (starRingEnd ℂ) * (D * D) = v * u.map (starRingEnd ℂ) * (D * D) * (uᵀ * u.map (starRingEnd ℂ)) := by rw [hub, Matrix.mul_one]
            _ = _ := by simp only [Matrix.mul_assoc]
      _ = v * (vᴴ * (D * D) * v) * u.map (starRingEnd ℂ) := by rw [e3]
      _ = (v * vᴴ) * (D * D) * Y := by rw [hY]; simp only [Matrix.mul_assoc]
      _ = (D * D) * Y := by rw [hvv, Matrix.one_mul]
  have h3 : Y * D = D * Y := by
    ext i j
    have := congrFun (congrFun h2 i) j
    rw [hD, diagonal_mul_diagonal, mul_diagonal, diagonal_mul] at this
    rw [hD, mul_diagonal, diagonal_mul]
    by_cases hij : d i = d j
    · rw [hij, mul_comm]
    · have hne : (d i : ℂ) * d i ≠ (d j : ℂ) * d j := by
        intro h
        apply hij
        have h' : d i * d i = d j * d j := by exact_mod_cast h
        exact (mul_self_inj (hd i) (hd j)).mp h'
      have : Y i j * ((d j : ℂ) * d j - (d i : ℂ) * d i) = 0 := by linear_combination this
      rcases mul_eq_zero.mp this with h | h
      · rw [h]; ring
      · exact absurd (sub_eq_zero.mp h).symm hne
  have h4 : Yᵀ * D = D * Yᵀ := by
    have := congrArg Matrix.transpose h3
    rw [transpose_mul Y D, transpose_mul D Y, hDt] at this
    exact this.symm
  obtain ⟨p, hp⟩ := hW
  have hWD : D * W = W * D := by rw [hp]; exact aeval_semiconj D Yᵀ Yᵀ h4.symm p
  have hWt : D * W = Wᵀ * D := by
    rw [hp, aeval_transpose, transpose_transpose]; exact aeval_semiconj D Yᵀ Y (by rw [← h4, ← h1, h3]) p
  have hWt' : D * Wᵀ = D * W := by
    have := congrArg Matrix.transpose hWD
    rw [transpose_mul, transpose_mul, hDt] at this
    rw [← this, ← hWt]
  rw [transpose_mul]
  calc u * W * D * (Wᵀ * uᵀ) = u * (W * (D * Wᵀ)) * uᵀ := by simp only [Matrix.mul_assoc]
    _ = u * (W * W * D) * uᵀ := by rw [hWt', hWD, Matrix.mul_assoc W W D]
    _ = u * (D * Y) * uᵀ := by rw [hWW, h1]
    _ = u * D * v * (u.map (starRingEnd ℂ) * uᵀ) := by rw [hY]; simp only [Matrix.mul_assoc]
    _ = A := by rw [hbu, Matrix.mul_one, hsvd]

/-- `argmax` of the moduli: a position in the array whose entry is largest -/
theorem argmaxAbs_spec (n : ℕ) (A : CArr) (hn : 0 < n) : (argmaxAbs n A).1 < n ∧ (argmaxAbs n A).2 < n ∧
    ∀ i < n, ∀ j < n, ‖A i j‖ ≤ ‖A (argmaxAbs n A).1 (argmaxAbs n A).2‖ := by
  have key : ∀ m ≤ n * n, (((List.range m).foldl (fun best k => if ‖A best.1 best.2‖ < ‖A (k / n) (k % n)‖ then (k / n, k % n) else best) (0, 0) : ℕ × ℕ)).1 < n ∧
      (((List.range m).foldl (fun best k => if ‖A best.1 best.2‖ < ‖A (k / n) (k % n)‖ then (k / n, k % n) else best) (0, 0) : ℕ × ℕ)).2 < n ∧
      ∀ k < m, ‖A (k / n) (k % n)‖ ≤ ‖A (((List.range m).foldl (fun best k => if ‖A best.1 best.2‖ < ‖A (k / n) (k % n)‖ then (k / n, k % n) else best) (0, 0) : ℕ × ℕ)).1
        (((List.range m).foldl (fun best k => if ‖A best.1 best.2‖ < ‖A (k / n) (k % n)‖ then (k / n, k % n) else best) (0, 0) : ℕ × ℕ)).2‖ := by
    intro m
    induction m with
    | zero => intro _; exact ⟨hn, hn, fun k hk => absurd hk (Nat.not_lt_zero _)⟩
    | succ m ih =>
      intro hm
      obtain ⟨i1, i2, i3⟩ := ih (by omega)
      rw [List.range_succ, List.foldl_append]
      set b := ((List.range m).foldl (fun best k => if ‖A best.1 best.2‖ < ‖A (k / n) (k % n)‖ then (k / n, k % n) else best) (0, 0) : ℕ × ℕ) with hb
      simp only [List.foldl_cons, List.foldl_nil]
      split_ifs with h
      · refine ⟨Nat.div_lt_of_lt_mul (by omega), Nat.mod_lt _ hn, fun k hk => ?_⟩
        by_cases hk' : k = m
        · subst hk'; exact le_refl _
        · exact (i3 k (by omega)).trans h.le
      · refine ⟨i1, i2, fun k hk => ?_⟩
        by_cases hk' : k = m
        · subst hk'; exact not_lt.mp h
        · exact i3 k (by omega)
  obtain ⟨k1, k2, k3⟩ := key (n * n) le_rfl
  refine ⟨k1, k2, fun i hi j hj => ?_⟩
  have hlt : i * n + j < n * n := by nlinarith
  have := k3 (i * n + j) hlt
  rwa [Nat.mul_comm i n, Nat.mul_add_div hn, Nat.div_eq_of_lt hj, Nat.mul_add_mod, Nat.mod_eq_of_lt hj, add_zero] at this

theorem takagi_zero (n : ℕ) (desc : Bool) (B : CArr) (hB : ∀ i < n, ∀ j < n, B i j = 0) : IsTakagi n desc B (fun _ => 0) eye := by
  have h1 : toMatrix n n (eye : CArr) = 1 := toMatrix_eye n
  have h2 : toMatrix n n B = 0 := by ext i j; exact hB i i.2 j j.2
  refine ⟨by rw [h1]; exact one_mem _, fun _ _ => le_refl _, fun _ _ _ _ => by split_ifs <;> exact le_refl _, ?_⟩
  rw [h1, h2]
  simp

theorem triuSym_symm {K : Type} (A : ℕ → ℕ → K) (i j : ℕ) : triuSym A i j = triuSym A j i := by
  unfold triuSym
  rcases Nat.lt_trichotomy i j with h | h | h
  · rw [if_pos h.le, if_neg (by omega)]
  · subst h; rfl
  · rw [if_neg (by omega), if_pos h.le]

theorem triuSym_idem {K : Type} (A : ℕ → ℕ → K) (h : ∀ i j, A i j = A j i) : triuSym A = A := by
  funext i j; unfold triuSym; split_ifs
  · rfl
  · exact h j i

theorem takagi_congr (n : ℕ) (desc : Bool) (B B' : CArr) (h : ∀ i < n, ∀ j < n, B i j = B' i j) (r : ℕ → ℝ) (U : CArr) (ht : IsTakagi n desc B r U) : IsTakagi n desc B' r U := by
  obtain ⟨h1, h2, h3, h4⟩ := ht
  refine ⟨h1, h2, h3, h4.trans ?_⟩
  ext i j; exact h i i.2 j j.2

/-- a Takagi factorisation of a real matrix, times a global phase -/
theorem takagi_phase (n : ℕ) (desc : Bool) (B B' : CArr) (φ : ℝ) (h : ∀ i < n, ∀ j < n, B' i j = Complex.exp (Complex.I * φ) * B i j) (r : ℕ → ℝ) (U : CArr)
    (ht : IsTakagi n desc B r U) : IsTakagi n desc B' r fun i j => U i j * Complex.exp (Complex.I * φ / 2) := by
  obtain ⟨h1, h2, h3, h4⟩ := ht
  have e1 : toMatrix n n (fun i j => U i j * Complex.exp (Complex.I * φ / 2)) = Complex.exp (Complex.I * φ / 2) • toMatrix n n U := by
    ext i j; exact mul_comm _ _
  have hee : Complex.exp (Complex.I * φ / 2) * Complex.exp (Complex.I * φ / 2) = Complex.exp (Complex.I * φ) := by rw [← Complex.exp_add]; congr 1; ring
  have hes : Complex.exp (Complex.I * φ / 2) * star (Complex.exp (Complex.I * φ / 2)) = 1 := by
    rw [Complex.star_def, ← Complex.exp_conj, ← Complex.exp_add]
    have : Complex.I * φ / 2 + (starRingEnd ℂ) (Complex.I * φ / 2) = 0 := by
      simp only [map_div₀, map_mul, Complex.conj_I, Complex.conj_ofReal, map_ofNat]; ring
    rw [this, Complex.exp_zero]
  have e2 : toMatrix n n B' = Complex.exp (Complex.I * φ) • toMatrix n n B := by
    ext i j; exact h i i.2 j j.2
  refine ⟨?_, h2, h3, ?_⟩
  · rw [e1, mem_unitaryGroup_iff, star_smul, Matrix.smul_mul, Matrix.mul_smul, smul_smul, hes, one_smul]
    exact mem_unitaryGroup_iff.mp h1
  · rw [e1, e2, ← h4, transpose_smul, Matrix.smul_mul, Matrix.smul_mul, Matrix.mul_smul, smul_smul, hee]

/-- what the diagonal branch returns: a factorisation of the diagonal matrix with the diagonal of `A` sorted by descending modulus -/
theorem takagiDiag_value (lib : TakagiLib) (hl : ArgsortContract lib.argsort) (n : ℕ) (A : CArr) (desc : Bool) :
    IsTakagi n desc (fun i j => if i = j then A (lib.argsort n (fun i => ‖A i i‖) (n - 1 - i)) (lib.argsort n (fun i => ‖A i i‖) (n - 1 - i)) else 0)
      (takagiDiag lib n A desc).1 (takagiDiag lib n A desc).2 := by
  obtain ⟨p1, p2, p3⟩ := hl n fun i => ‖A i i‖
  set idx := lib.argsort n (fun i => ‖A i i‖) with hidx
  let d : ℕ → ℂ := fun i => A (idx i) (idx i)
  let c : ℕ → ℂ := fun i => Complex.exp (Complex.I * (1 / 2) * Complex.arg (d i))
  have hcc : ∀ i, c i * (‖d i‖ : ℂ) * c i = d i := by
    intro i
    simp only [c]
    rw [mul_right_comm, ← Complex.exp_add]
    have : Complex.I * (1 / 2) * (Complex.arg (d i) : ℂ) + Complex.I * (1 / 2) * (Complex.arg (d i) : ℂ) = Complex.arg (d i) * Complex.I := by ring
    rw [this, mul_comm, Complex.norm_mul_exp_arg_mul_I]
  have hcs : ∀ i, c i * star (c i) = 1 := by
    intro i
    simp only [c]
    rw [Complex.star_def, ← Complex.exp_conj, ← Complex.exp_add]
    have : Complex.I * (1 / 2) * (Complex.arg (d i) : ℂ) + (starRingEnd ℂ) (Complex.I * (1 / 2) * (Complex.arg (d i) : ℂ)) = 0 := by
      simp only [map_div₀, map_mul, Complex.conj_I, Complex.conj_ofReal, map_ofNat, map_one]; ring
    rw [this, Complex.exp_zero]
  -- descending order
  have hdesc : IsTakagi n true (fun i j => if i = j then d (n - 1 - i) else 0) (fun i => ‖d (n - 1 - i)‖) (fun i j => if n - 1 - i = n - 1 - j then c (n - 1 - i) else 0) := by
    have e1 : toMatrix n n (fun i j => if n - 1 - i = n - 1 - j then c (n - 1 - i) else 0) = diagonal fun i : Fin n => c (n - 1 - i) := by
      ext i j
      have h1 := i.2; have h2 := j.2
      simp only [toMatrix, of_apply, diagonal_apply, Fin.ext_iff]
      by_cases h : (i : ℕ) = j
      · simp [h]
      · rw [if_neg (by omega), if_neg h]
    have e2 : toMatrix n n (fun i j => if i = j then d (n - 1 - i) else 0) = diagonal fun i : Fin n => d (n - 1 - i) := by
      ext i j; simp only [toMatrix, of_apply, diagonal_apply, Fin.ext_iff]
    refine ⟨?_, fun _ _ => norm_nonneg _, fun i j hij hj => ?_, ?_⟩
    · rw [e1, mem_unitaryGroup_iff, star_eq_conjTranspose, diagonal_conjTranspose, diagonal_mul_diagonal, ← diagonal_one]
      congr 1; funext i; exact hcs _
    · exact p3 (n - 1 - j) (n - 1 - i) (by omega) (by omega)
    · rw [e1, e2, diagonal_transpose, diagonal_mul_diagonal, diagonal_mul_diagonal]
      congr 1; funext i; exact hcc _
  cases desc
  · obtain ⟨d1, d2, d3, d4⟩ := hdesc
    obtain ⟨t1, t2⟩ := takagi_perm n (fun i => ‖d (n - 1 - i)‖) _ (fun j => n - 1 - j) (rev_lt n) (rev_inj n) d1
    have hrev : ∀ i < n, n - 1 - (n - 1 - i) = i := fun i hi => by omega
    have hU : toMatrix n n (takagiDiag lib n A false).2 = toMatrix n n fun i j => if n - 1 - i = n - 1 - (n - 1 - j) then c (n - 1 - i) else 0 := by
      ext i j
      simp only [takagiDiag, toMatrix, of_apply, hrev j j.2]
      rfl
    have hr : ∀ i < n, (takagiDiag lib n A false).1 i = ‖d (n - 1 - (n - 1 - i))‖ := by
      intro i hi; rw [hrev i hi]; rfl
    refine ⟨by rw [hU]; exact t1, fun i _ => norm_nonneg _, fun i j hij hj => ?_, ?_⟩
    · exact p3 i j hij hj
    · rw [hU]
      have : (fun i : Fin n => (((takagiDiag lib n A false).1 i : ℝ) : ℂ)) = fun i : Fin n => ((‖d (n - 1 - (n - 1 - i))‖ : ℝ) : ℂ) := by
        funext i; rw [hr i i.2]
      rw [this, t2, d4]
  · exact hdesc

/-- `A` is a real matrix times a complex number -/
def PhaseReal (n : ℕ) (B : CArr) : Prop := ∃ c : ℂ, ∃ x : ℕ → ℕ → ℝ, ∀ i < n, ∀ j < n, B i j = c * x i j

/-- C48, in part: `takagi(A)` of a square matrix returns `(r, U)`, `U` unitary, `r` non-negative and ordered as requested, `U diag(r) Uᵀ = A` (symmetrised from its upper
triangle).  Missing: diagonal matrices that are not a real matrix times a phase and whose diagonal is not of strictly descending modulus; there the result is wrong
(`takagi_diagonal_wrong`). -/
theorem takagi_correct_partial (lib : TakagiLib) (hl : TakagiContract lib) (n : ℕ) (A : CArr) (desc : Bool)
    (hd : (∀ i < n, ∀ j < n, i ≠ j → triuSym A i j = 0) → PhaseReal n (triuSym A) ∨ ∀ i j, i < j → j < n → ‖A j j‖ < ‖A i i‖) :
    ∃ r U, takagi lib n n A desc = .ok (r, U) ∧ IsTakagi n desc (triuSym A) r U := by
  unfold takagi
  rw [if_neg (not_not.mpr rfl)]
  dsimp only
  set B := triuSym A with hB
  have hBs : ∀ i j, B i j = B j i := triuSym_symm A
  have hreal : isRealIfClose lib.tiny n B = true ↔ ∀ i < n, ∀ j < n, (B i j).im = 0 := by
    simp [isRealIfClose, hl.tiny]
  set B' : CArr := if isRealIfClose lib.tiny n B = true then fun i j => ((B i j).re : ℂ) else B with hB'
  have hBB : ∀ i < n, ∀ j < n, B' i j = B i j := by
    intro i hi j hj
    rw [hB']; split_ifs with h
    · exact Complex.ext rfl (hreal.mp h i hi j hj).symm
    · rfl
  by_cases hz : allClose2 lib.closeZ n n B' (fun _ _ => 0) = true
  · rw [if_pos hz]
    refine ⟨_, _, rfl, takagi_zero n desc B fun i hi j hj => ?_⟩
    rw [allClose2_iff] at hz
    rw [← hBB i hi j hj]; exact (hl.closeZ _ _).mp (hz i hi j hj)
  rw [if_neg hz]
  by_cases hr : isRealIfClose lib.tiny n B = true
  · rw [if_pos hr]
    refine ⟨_, _, rfl, ?_⟩
    refine takagi_congr n desc _ _ ?_ _ _ (takagiReal_correct lib hl n (fun i j => (B' i j).re) ?_ desc)
    · intro i hi j hj; rw [hBB i hi j hj]; exact Complex.ext rfl (hreal.mp hr i hi j hj).symm
    · ext i j; simp only [transpose_apply, toMatrix, of_apply]; rw [hBB j j.2 i i.2, hBB i i.2 j j.2, hBs]
  rw [if_neg hr]
  have hB'B : B' = B := by rw [hB', if_neg hr]
  rw [hB'B]
  rw [hB'B] at hz
  have hn : 0 < n := by
    rcases Nat.eq_zero_or_pos n with h | h
    · subst h; exact absurd ((allClose2_iff 0 0 _ _ _).mpr fun i hi => absurd hi (Nat.not_lt_zero _)) hz
    · exact h
  obtain ⟨m1, m2, m3⟩ := argmaxAbs_spec n B hn
  set φ := Complex.arg (B (argmaxAbs n B).1 (argmaxAbs n B).2) with hφ
  have hexp : ∀ z : ℂ, Complex.exp (Complex.I * φ) * (Complex.exp (-Complex.I * φ) * z) = z := by
    intro z; rw [← mul_assoc, ← Complex.exp_add]; simp
  have hphase : isRealIfClose lib.tiny n (fun i j => Complex.exp (-Complex.I * φ) * B i j) = true ↔ ∀ i < n, ∀ j < n, (Complex.exp (-Complex.I * φ) * B i j).im = 0 := by
    simp [isRealIfClose, hl.tiny]
  by_cases hp : isRealIfClose lib.tiny n (fun i j => Complex.exp (-Complex.I * φ) * B i j) = true
  · rw [if_pos hp]
    refine ⟨_, _, rfl, ?_⟩
    set X : RArr := fun i j => (Complex.exp (-Complex.I * φ) * B i j).re with hX
    have hXs : ∀ i j, X i j = X j i := fun i j => by simp only [hX]; rw [hBs]
    have hXB : ∀ i < n, ∀ j < n, B i j = Complex.exp (Complex.I * φ) * (X i j : ℂ) := by
      intro i hi j hj
      have : ((X i j : ℝ) : ℂ) = Complex.exp (-Complex.I * φ) * B i j := Complex.ext rfl (hphase.mp hp i hi j hj).symm
      rw [this, hexp]
    apply takagi_phase n desc (fun i j => (X i j : ℂ)) B φ hXB
    have hval : takagiOfReal lib n X desc = if allClose2 lib.closeZ n n (fun i j => (X i j : ℂ)) (fun _ _ => 0) then (fun _ => 0, eye) else takagiReal lib n X desc := by
      unfold takagiOfReal; rw [triuSym_idem X hXs]
    rw [hval]
    split_ifs with h0
    · apply takagi_zero
      intro i hi j hj
      exact (hl.closeZ _ _).mp ((allClose2_iff _ _ _ _ _).mp h0 i hi j hj)
    · exact takagiReal_correct lib hl n X (by ext i j; exact hXs _ _) desc
  rw [if_neg hp]
  by_cases hdg : allClose2 lib.closeD n n B (fun i j => if i = j then B i i else 0) = true
  · rw [if_pos hdg]
    refine ⟨_, _, rfl, ?_⟩
    rw [allClose2_iff] at hdg
    have hoff : ∀ i < n, ∀ j < n, i ≠ j → B i j = 0 := by
      intro i hi j hj hij
      have := (hl.closeD _ _).mp (hdg i hi j hj)
      rwa [if_neg hij] at this
    rcases hd hoff with ⟨c, x, hcx⟩ | hdesc
    · exfalso
      apply hp
      rw [hphase]
      intro i hi j hj
      set a := B (argmaxAbs n B).1 (argmaxAbs n B).2 with ha
      have ha0 : a ≠ 0 := by
        intro h0
        apply hz
        rw [allClose2_iff]
        intro i hi j hj
        rw [hl.closeZ]
        have := m3 i hi j hj
        rw [h0, norm_zero] at this
        exact norm_le_zero_iff.mp this
      have hax := hcx _ m1 _ m2
      rw [← ha] at hax
      have hx0 : ((x (argmaxAbs n B).1 (argmaxAbs n B).2 : ℝ) : ℂ) ≠ 0 := by
        intro h; rw [h, mul_zero] at hax; exact ha0 hax
      have hna : Complex.exp (-Complex.I * φ) * a = (‖a‖ : ℂ) := by
        have := Complex.norm_mul_exp_arg_mul_I a
        calc Complex.exp (-Complex.I * φ) * a = Complex.exp (-Complex.I * φ) * (‖a‖ * Complex.exp (Complex.arg a * Complex.I)) := by rw [this]
          _ = ‖a‖ * (Complex.exp (-Complex.I * φ) * Complex.exp (Complex.arg a * Complex.I)) := by ring
          _ = _ := by
            rw [← Complex.exp_add, hφ]
            have : -Complex.I * (Complex.arg a : ℂ) + (Complex.arg a : ℂ) * Complex.I = 0 := by ring
            rw [this, Complex.exp_zero, mul_one]
      have hc : Complex.exp (-Complex.I * φ) * c = ((‖a‖ / x (argmaxAbs n B).1 (argmaxAbs n B).2 : ℝ) : ℂ) := by
        push_cast
        rw [eq_div_iff hx0, mul_assoc, ← hax, hna]
      rw [hcx i hi j hj, ← mul_assoc, hc, ← Complex.ofReal_mul, Complex.ofReal_im]
    · have hdiag : ∀ i, B i i = A i i := fun i => by rw [hB]; simp [triuSym]
      refine takagi_congr n desc _ _ ?_ _ _ (takagiDiag_value lib hl.argsort n B desc)
      obtain ⟨p1, p2, p3⟩ := hl.argsort n fun i => ‖B i i‖
      set idx := lib.argsort n (fun i => ‖B i i‖) with hidx
      -- sorting a strictly descending list into ascending order reverses it
      have hrev : ∀ i < n, idx (n - 1 - i) = i := by
        have hmono : ∀ i j, i < j → j < n → idx j < idx i := by
          intro i j hij hj
          by_contra hcon
          have hle := p3 i j hij.le hj
          rcases Nat.lt_or_ge (idx i) (idx j) with h | h
          · have := hdesc _ _ h (p1 j hj)
            rw [← hdiag, ← hdiag] at this
            linarith
          · have := p2 i (by omega) j hj (by omega); omega
        have hlow : ∀ k, ∀ i < n, i + k + 1 = n → k ≤ idx i := by
          intro k
          induction k with
          | zero => intros; omega
          | succ k ih =>
            intro i hi h
            have := hmono i (i + 1) (by omega) (by omega)
            have := ih (i + 1) (by omega) (by omega)
            omega
        have hhigh : ∀ i < n, idx i + i + 1 ≤ n := by
          intro i
          induction i with
          | zero => intro hi; have := p1 0 hi; omega
          | succ i ih => intro hi; have := hmono i (i + 1) (by omega) hi; have := ih (by omega); omega
        intro i hi
        have h1 := hlow i (n - 1 - i) (by omega) (by omega)
        have h2 := hhigh (n - 1 - i) (by omega)
        omega
      intro i hi j hj
      by_cases hij : i = j
      · subst hij; rw [if_pos rfl, hrev i hi]
      · rw [if_neg hij, hoff i hi j hj hij]
  rw [if_neg hdg]
  -- the singular value branch
  obtain ⟨s1, s2, s3, s4, s5⟩ := hl.svd n B
  set u := (lib.svd n B).1 with hu
  set d := (lib.svd n B).2.1 with hdd
  set v := (lib.svd n B).2.2 with hv
  set Z : CArr := fun i j => mmul n v (fun a b => (starRingEnd ℂ) (u a b)) j i with hZ
  have hZm : toMatrix n n Z = (toMatrix n n v * (toMatrix n n u).map (starRingEnd ℂ))ᵀ := by
    have : toMatrix n n Z = (toMatrix n n (mmul n v fun a b => (starRingEnd ℂ) (u a b)))ᵀ := rfl
    rw [this, toMatrix_mmul]; rfl
  have hub : (toMatrix n n u).map (starRingEnd ℂ) ∈ unitaryGroup (Fin n) ℂ := by
    rw [mem_unitaryGroup_iff']
    have := mem_unitaryGroup_iff.mp s1
    have h2 := congrArg Matrix.transpose (mem_unitaryGroup_iff'.mp s1)
    rw [transpose_mul, transpose_one] at h2
    have e : star ((toMatrix n n u).map (starRingEnd ℂ)) = (toMatrix n n u)ᵀ := by
      ext i j; simp [star_eq_conjTranspose, conjTranspose_apply]
    rw [e]; exact h2
  have hZu : toMatrix n n Z ∈ unitaryGroup (Fin n) ℂ := by
    rw [hZm]
    have h3 := mul_mem s2 hub
    rw [mem_unitaryGroup_iff]
    have h2 := congrArg Matrix.transpose (mem_unitaryGroup_iff'.mp h3)
    rw [transpose_mul, transpose_one] at h2
    exact h2
  obtain ⟨w1, w2, w3⟩ := hl.sqrtm n Z hZu
  set W := lib.sqrtm n Z with hW
  have hBm : (toMatrix n n B)ᵀ = toMatrix n n B := by ext i j; exact hBs _ _
  have hcore := takagi_svd_core n (toMatrix n n B) (toMatrix n n u) (toMatrix n n v) (toMatrix n n W) (fun i => d i) hBm s1 s2 (fun i => s3 i i.2) s5 (by rw [w2, hZm])
    (by rw [← hZm]; exact w3)
  have hUm : toMatrix n n (mmul n u W) = toMatrix n n u * toMatrix n n W := toMatrix_mmul n n n u W
  have hUu : toMatrix n n (mmul n u W) ∈ unitaryGroup (Fin n) ℂ := by rw [hUm]; exact mul_mem s1 w1
  cases desc
  · obtain ⟨t1, t2⟩ := takagi_perm n d (mmul n u W) (fun j => n - 1 - j) (rev_lt n) (rev_inj n) hUu
    refine ⟨_, _, rfl, t1, fun i hi => s3 _ (by omega), fun i j hij hj => ?_, ?_⟩
    · exact s4 (n - 1 - j) (n - 1 - i) (by omega) (by omega)
    · rw [t2, hUm]; exact hcore
  · refine ⟨_, _, rfl, hUu, s3, fun i j hij hj => s4 i j hij hj, ?_⟩
    rw [hUm]; exact hcore

/-- C48: a matrix that is not square raises `ValueError`. -/
theorem takagi_raises (lib : TakagiLib) (n m : ℕ) (A : CArr) (desc : Bool) (h : n ≠ m) : takagi lib n m A desc = .error .valueError := by
  unfold takagi; rw [if_pos h]

/-- a `2 × 2` diagonal matrix `diag(a, b i)` with `0 < a < b` takes the diagonal branch -/
theorem takagi_two (lib : TakagiLib) (hl : TakagiContract lib) (a b : ℝ) (ha : 0 < a) (hab : a < b) (A : CArr) (h00 : A 0 0 = a) (h01 : A 0 1 = 0)
    (h11 : A 1 1 = b * Complex.I) (desc : Bool) :
    ∃ r U, takagi lib 2 2 A desc = .ok (r, U) ∧ IsTakagi 2 desc (fun i j => if i = j then (if i = 0 then b * Complex.I else a) else 0) r U := by
  have hb : 0 < b := ha.trans hab
  have hB : ∀ i < 2, ∀ j < 2, triuSym A i j = if i = j then (if i = 0 then (a : ℂ) else b * Complex.I) else 0 := by
    intro i hi j hj
    interval_cases i <;> interval_cases j <;> simp [triuSym, h00, h01, h11]
  unfold takagi
  rw [if_neg (not_not.mpr rfl)]
  dsimp only
  have hr : ¬ isRealIfClose lib.tiny 2 (triuSym A) = true := by
    simp only [isRealIfClose, List.all_eq_true, List.mem_range, hl.tiny]
    intro h
    have := h 1 (by omega) 1 (by omega)
    rw [hB 1 (by omega) 1 (by omega)] at this
    simp at this
    exact hb.ne' this
  rw [if_neg hr]
  have hz : ¬ allClose2 lib.closeZ 2 2 (triuSym A) (fun _ _ => 0) = true := by
    rw [allClose2_iff]; intro h
    have := (hl.closeZ _ _).mp (h 0 (by omega) 0 (by omega))
    rw [hB 0 (by omega) 0 (by omega)] at this
    simp at this
    exact ha.ne' this
  rw [if_neg hz, if_neg hr]
  have hmax : argmaxAbs 2 (triuSym A) = (1, 1) := by
    have e00 : ‖triuSym A 0 0‖ = a := by rw [hB 0 (by omega) 0 (by omega)]; simp [abs_of_pos ha]
    have e01 : ‖triuSym A 0 1‖ = 0 := by rw [hB 0 (by omega) 1 (by omega)]; simp
    have e10 : ‖triuSym A 1 0‖ = 0 := by rw [hB 1 (by omega) 0 (by omega)]; simp
    have e11 : ‖triuSym A 1 1‖ = b := by rw [hB 1 (by omega) 1 (by omega)]; simp [abs_of_pos hb]
    have hl4 : List.range (2 * 2) = [0, 1, 2, 3] := rfl
    unfold argmaxAbs
    rw [hl4]
    simp [e00, e01, e10, e11, ha.le, hab, not_lt.mpr ha.le]
  have hφ : Complex.arg (triuSym A (argmaxAbs 2 (triuSym A)).1 (argmaxAbs 2 (triuSym A)).2) = Real.pi / 2 := by
    rw [hmax]
    have : triuSym A 1 1 = b * Complex.I := by rw [hB 1 (by omega) 1 (by omega)]; simp
    rw [this, Complex.arg_real_mul _ hb, Complex.arg_I]
  rw [hφ]
  have hexp : Complex.exp (-Complex.I * ((Real.pi / 2 : ℝ) : ℂ)) = -Complex.I := by
    have : -Complex.I * ((Real.pi / 2 : ℝ) : ℂ) = -(Real.pi / 2 * Complex.I) := by push_cast; ring
    rw [this, Complex.exp_neg, Complex.exp_pi_div_two_mul_I, Complex.inv_I]
  have hp : ¬ isRealIfClose lib.tiny 2 (fun i j => Complex.exp (-Complex.I * ((Real.pi / 2 : ℝ) : ℂ)) * triuSym A i j) = true := by
    simp only [isRealIfClose, List.all_eq_true, List.mem_range, hl.tiny]
    intro h
    have := h 0 (by omega) 0 (by omega)
    rw [hB 0 (by omega) 0 (by omega), hexp] at this
    simp at this
    exact ha.ne' this
  rw [if_neg hp]
  have hd : allClose2 lib.closeD 2 2 (triuSym A) (fun i j => if i = j then triuSym A i i else 0) = true := by
    rw [allClose2_iff]; intro i hi j hj
    rw [hl.closeD]
    by_cases h : i = j
    · subst h; rw [if_pos rfl]
    · rw [if_neg h, hB i hi j hj, if_neg h]
  rw [if_pos hd]
  refine ⟨_, _, rfl, ?_⟩
  refine takagi_congr 2 desc _ _ ?_ _ _ (takagiDiag_value lib hl.argsort 2 (triuSym A) desc)
  obtain ⟨p1, p2, p3⟩ := hl.argsort 2 fun i => ‖triuSym A i i‖
  set idx := lib.argsort 2 (fun i => ‖triuSym A i i‖) with hidx
  have e0 : triuSym A 0 0 = a := by rw [hB 0 (by omega) 0 (by omega)]; simp
  have e1 : triuSym A 1 1 = b * Complex.I := by rw [hB 1 (by omega) 1 (by omega)]; simp
  have i0 : idx 0 = 0 := by
    have h1 := p1 0 (by omega)
    have h2 := p1 1 (by omega)
    have h3 := p2 0 (by omega) 1 (by omega)
    have h4 := p3 0 1 (by omega) (by omega)
    by_contra hne
    have i0' : idx 0 = 1 := by omega
    have i1' : idx 1 = 0 := by
      by_contra hne'
      have := h3 (by omega); omega
    rw [i0', i1', e0, e1] at h4
    simp [abs_of_pos ha, abs_of_pos hb] at h4
    linarith
  have i1 : idx 1 = 1 := by
    have h2 := p1 1 (by omega)
    have h3 := p2 0 (by omega) 1 (by omega)
    by_contra hne
    have := h3 (by omega); omega
  intro i hi j hj
  interval_cases i <;> interval_cases j <;> simp [i0, i1, e0, e1]

/-- C48 (finding): on the diagonal matrix `diag(1, 2i)` the pair `(r, U)` returned by `takagi` does not satisfy `U diag(r) Uᵀ = A`: the branch for diagonal matrices sorts the
values and never permutes the rows of `U` back, so that it factorises `diag(2i, 1)`. -/
theorem takagi_diagonal_wrong (lib : TakagiLib) (hl : TakagiContract lib) (desc : Bool) :
    ∃ r U, takagi lib 2 2 (fun i j => if i = j then (if i = 0 then 1 else 2 * Complex.I) else 0) desc = .ok (r, U) ∧
      ¬ IsTakagi 2 desc (fun i j => if i = j then (if i = 0 then 1 else 2 * Complex.I) else 0) r U := by
  obtain ⟨r, U, h1, h2⟩ := takagi_two lib hl 1 2 one_pos (by norm_num) (fun i j => if i = j then (if i = 0 then 1 else 2 * Complex.I) else 0) (by simp) (by simp) (by simp) desc
  refine ⟨r, U, h1, fun h3 => ?_⟩
  have := h3.2.2.2.symm.trans h2.2.2.2
  have := congrFun (congrFun this 0) 0
  simp only [toMatrix, of_apply] at this
  have := congrArg Complex.re this
  simp at this

end Verif.Props
