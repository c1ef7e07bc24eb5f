/-
C50: the random matrices of thewalrus/random.py, for every sequence of random numbers.
-/
import Verif.Model.Random
import Verif.Props.LinAlgExists
import Verif.Props.BlochMessiah
import Verif.Props.Physical
import Verif.Props.Entanglement

set_option linter.unusedSectionVars false
set_option linter.unusedSimpArgs false

namespace Verif.Props
open Matrix Verif.Model Verif.Model.Symp Verif.Model.Rnd Verif.Spec Verif.Lemmas.Symp
open scoped ComplexOrder

/-- `U` is the unitary factor of `Z` in the QR decomposition with a positive diagonal. -/
def IsPositiveQR {n : ℕ} (Z U : Matrix (Fin n) (Fin n) ℂ) : Prop :=
  U ∈ unitaryGroup (Fin n) ℂ ∧ ∃ R : Matrix (Fin n) (Fin n) ℂ, (∀ i j, j < i → R i j = 0) ∧ (∀ i, ∃ x : ℝ, 0 < x ∧ R i i = x) ∧ U * R = Z

/-- The random matrix that is drawn after `k` calls: real, or complex with independent real and imaginary parts divided by `√2`. -/
noncomputable def ginibre (rng : ℕ → RArr) (real : Bool) (N k : ℕ) : Matrix (Fin N) (Fin N) ℂ :=
  if real then Matrix.of fun i j : Fin N => ((rng k i j : ℝ) : ℂ)
  else Matrix.of fun i j : Fin N => (((rng k i j : ℝ) : ℂ) + Complex.I * ((rng (k + 1) i j : ℝ) : ℂ)) / ((Real.sqrt 2 : ℝ) : ℂ)

section qr
variable {n : ℕ}

theorem upper_mul_det (R : Matrix (Fin n) (Fin n) ℂ) (h : ∀ i j, j < i → R i j = 0) : R.det = ∏ i, R i i :=
  det_of_upperTriangular fun i j hij => h i j hij

theorem unitary_det_ne {U : Matrix (Fin n) (Fin n) ℂ} (h : U ∈ unitaryGroup (Fin n) ℂ) : U.det ≠ 0 := by
  have h1 := mem_unitaryGroup_iff.mp h
  have := congrArg Matrix.det h1
  rw [det_mul, det_one] at this
  exact left_ne_zero_of_mul_eq_one this

theorem upper_of_mul (W R S : Matrix (Fin n) (Fin n) ℂ) (hR : ∀ i j, j < i → R i j = 0) (hR0 : ∀ i, R i i ≠ 0)
    (hS : ∀ i j, j < i → S i j = 0) (e : W * R = S) : ∀ i j, j < i → W i j = 0 := by
  intro i j
  induction j using WellFoundedLT.induction with
  | ind j ih =>
    intro hij
    have h1 : (W * R) i j = 0 := by rw [e]; exact hS i j hij
    rw [mul_apply, Finset.sum_eq_single j] at h1
    · exact (mul_eq_zero.mp h1).resolve_right (hR0 j)
    · intro k _ hk
      rcases lt_or_gt_of_ne hk with hk | hk
      · rw [ih k hk (hk.trans hij), zero_mul]
      · rw [hR k j hk, mul_zero]
    · simp

/-- C50: the unitary factor with a positive diagonal is unique: it does not depend on how the QR decomposition is computed. -/
theorem positiveQR_unique (Z U V : Matrix (Fin n) (Fin n) ℂ) (hU : IsPositiveQR Z U) (hV : IsPositiveQR Z V) : U = V := by
  obtain ⟨hU1, R, hR, hRp, hRe⟩ := hU
  obtain ⟨hV1, S, hS, hSp, hSe⟩ := hV
  have hR0 : ∀ i, R i i ≠ 0 := fun i => by obtain ⟨x, hx, e⟩ := hRp i; rw [e]; exact_mod_cast hx.ne'
  have hS0 : ∀ i, S i i ≠ 0 := fun i => by obtain ⟨x, hx, e⟩ := hSp i; rw [e]; exact_mod_cast hx.ne'
  have hVV : Vᴴ * V = 1 := mem_unitaryGroup_iff'.mp hV1
  have hVV' : V * Vᴴ = 1 := mem_unitaryGroup_iff.mp hV1
  have hUU : Uᴴ * U = 1 := mem_unitaryGroup_iff'.mp hU1
  have hUU' : U * Uᴴ = 1 := mem_unitaryGroup_iff.mp hU1
  set W := Vᴴ * U with hW
  have e1 : W * R = S := by rw [hW, Matrix.mul_assoc, hRe, ← hSe, ← Matrix.mul_assoc, hVV, Matrix.one_mul]
  have hWH : Wᴴ = Uᴴ * V := by rw [hW, conjTranspose_mul, conjTranspose_conjTranspose]
  have e2 : Wᴴ * S = R := by rw [hWH, Matrix.mul_assoc, hSe, ← hRe, ← Matrix.mul_assoc, hUU, Matrix.one_mul]
  have w1 := upper_of_mul W R S hR hR0 hS e1
  have w2 := upper_of_mul Wᴴ S R hS hS0 hR e2
  have w3 : ∀ i j, i ≠ j → W i j = 0 := by
    intro i j hij
    rcases lt_or_gt_of_ne hij with h | h
    · have := w2 j i h
      rw [conjTranspose_apply] at this
      simpa using this
    · exact w1 i j h
  have w4 : ∀ i, W i i * R i i = S i i := by
    intro i
    have := congrFun (congrFun e1 i) i
    rw [mul_apply, Finset.sum_eq_single i] at this
    · exact this
    · intro k _ hk
      rw [w3 i k (Ne.symm hk), zero_mul]
    · simp
  have w5 : W * Wᴴ = 1 := by rw [hWH, hW, Matrix.mul_assoc, ← Matrix.mul_assoc U, hUU', Matrix.one_mul, hVV]
  have w6 : ∀ i, W i i = 1 := by
    intro i
    obtain ⟨x, hx, ex⟩ := hRp i
    obtain ⟨y, hy, ey⟩ := hSp i
    have h4 := w4 i
    have hx' : (x : ℂ) ≠ 0 := by exact_mod_cast hx.ne'
    have h5 : W i i = ((y / x : ℝ) : ℂ) := by
      rw [ex, ey] at h4
      push_cast
      rw [eq_div_iff hx', h4]
    have h6 := congrFun (congrFun w5 i) i
    rw [mul_apply, Finset.sum_eq_single i, conjTranspose_apply, h5, one_apply_eq] at h6
    · have h7 : (y / x) * (y / x) = 1 := by
        have : ((y / x : ℝ) : ℂ) * ((y / x : ℝ) : ℂ) = 1 := by simpa using h6
        exact_mod_cast this
      have h8 : 0 < y / x := div_pos hy hx
      have : y / x = 1 := by nlinarith
      rw [h5, this]; simp
    · intro k _ hk
      rw [w3 i k (Ne.symm hk), zero_mul]
    · simp
  have w7 : W = 1 := by
    ext i j
    by_cases hij : i = j
    · subst hij; rw [w6, one_apply_eq]
    · rw [w3 i j hij, one_apply_ne hij]
  calc U = V * (Vᴴ * U) := by rw [← Matrix.mul_assoc, hVV', Matrix.one_mul]
    _ = V := by rw [← hW, w7, Matrix.mul_one]

/-- C50: multiplying the random matrix by a unitary from the left multiplies the interferometer by it. -/
theorem positiveQR_mul (Z U V : Matrix (Fin n) (Fin n) ℂ) (hV : V ∈ unitaryGroup (Fin n) ℂ) (h : IsPositiveQR Z U) : IsPositiveQR (V * Z) (V * U) := by
  obtain ⟨hU, R, h1, h2, h3⟩ := h
  exact ⟨mul_mem hV hU, R, h1, h2, by rw [Matrix.mul_assoc, h3]⟩

theorem positiveQR_det (Z U : Matrix (Fin n) (Fin n) ℂ) (h : IsPositiveQR Z U) : Z.det ≠ 0 := by
  obtain ⟨hU, R, h1, h2, h3⟩ := h
  rw [← h3, det_mul, upper_mul_det R h1]
  refine mul_ne_zero (unitary_det_ne hU) (Finset.prod_ne_zero_iff.mpr fun i _ => ?_)
  obtain ⟨x, hx, e⟩ := h2 i
  rw [e]; exact_mod_cast hx.ne'

/-- moving the phases of the diagonal from the triangular factor to the unitary one -/
theorem positiveQR_phase (Q R Z : Matrix (Fin n) (Fin n) ℂ) (hQ : Q ∈ unitaryGroup (Fin n) ℂ) (hR : ∀ i j, j < i → R i j = 0) (e : Q * R = Z)
    (h0 : ∀ i, R i i ≠ 0) : IsPositiveQR Z (Q * diagonal fun j => R j j / (‖R j j‖ : ℂ)) := by
  have hn : ∀ i, (‖R i i‖ : ℂ) ≠ 0 := fun i => by exact_mod_cast norm_ne_zero_iff.mpr (h0 i)
  have hph : ∀ i, (R i i / (‖R i i‖ : ℂ)) * star (R i i / (‖R i i‖ : ℂ)) = 1 := by
    intro i
    have h1 : R i i * (starRingEnd ℂ) (R i i) = ((‖R i i‖ : ℝ) : ℂ) ^ 2 := Complex.mul_conj' _
    simp only [star_div₀, RCLike.star_def, Complex.conj_ofReal]
    rw [div_mul_div_comm, h1, pow_two, div_self (mul_ne_zero (hn i) (hn i))]
  refine ⟨mul_mem hQ ?_, (diagonal fun j => star (R j j / (‖R j j‖ : ℂ))) * R, ?_, ?_, ?_⟩
  · rw [mem_unitaryGroup_iff, star_eq_conjTranspose, diagonal_conjTranspose, diagonal_mul_diagonal]
    ext i j
    by_cases hij : i = j
    · subst hij; rw [diagonal_apply_eq, one_apply_eq]; exact hph i
    · rw [diagonal_apply_ne _ hij, one_apply_ne hij]
  · intro i j hij
    rw [diagonal_mul, hR i j hij, mul_zero]
  · intro i
    refine ⟨‖R i i‖, norm_pos_iff.mpr (h0 i), ?_⟩
    rw [diagonal_mul]
    have h1 : (starRingEnd ℂ) (R i i) * R i i = ((‖R i i‖ : ℝ) : ℂ) ^ 2 := Complex.conj_mul' _
    simp only [star_div₀, RCLike.star_def, Complex.conj_ofReal]
    rw [div_mul_eq_mul_div, h1, pow_two, mul_div_assoc, div_self (hn i), mul_one]
  · rw [Matrix.mul_assoc, ← Matrix.mul_assoc (diagonal _) (diagonal _), diagonal_mul_diagonal]
    have : (diagonal fun i => (R i i / (‖R i i‖ : ℂ)) * star (R i i / (‖R i i‖ : ℂ))) = (1 : Matrix (Fin n) (Fin n) ℂ) := by
      rw [← diagonal_one]; congr 1; funext i; exact hph i
    rw [this, Matrix.one_mul, e]

end qr

/-! ### computations with random numbers -/

theorem bind_some {α β : Type} {p : Rand α} {f : α → Rand β} {k : ℕ} {a : α} {l : ℕ} (h : p k = some (a, l)) : (p >>= f) k = f a l := by
  show (p k).bind (fun r => f r.1 r.2) = _
  rw [h]; rfl

theorem bind_none {α β : Type} {p : Rand α} {f : α → Rand β} {k : ℕ} (h : p k = none) : (p >>= f) k = none := by
  show (p k).bind (fun r => f r.1 r.2) = _
  rw [h]; rfl

theorem bind_eq {α β : Type} (p : Rand α) (f : α → Rand β) (k : ℕ) (b : β) (k' : ℕ) :
    (p >>= f) k = some (b, k') ↔ ∃ a l, p k = some (a, l) ∧ f a l = some (b, k') := by
  cases h : p k with
  | none => rw [bind_none h]; simp
  | some r => obtain ⟨a, l⟩ := r; rw [bind_some h]; simp

theorem pure_eq {α : Type} (a : α) (k : ℕ) (b : α) (k' : ℕ) : (pure a : Rand α) k = some (b, k') ↔ a = b ∧ k = k' := by
  show some (a, k) = _ ↔ _
  simp

/-- the routines meet their contracts -/
def LibOk (lib : Lib) : Prop := QrContract lib.qr ∧ QrContractC lib.qrc

/-- the number of calls to the generator -/
def calls (real : Bool) : ℕ := if real then 1 else 2

theorem map_unitary {n : ℕ} (Q : Matrix (Fin n) (Fin n) ℝ) (h : Q ∈ orthogonalGroup (Fin n) ℝ) : cmap Q ∈ unitaryGroup (Fin n) ℂ := by
  rw [mem_unitaryGroup_iff, star_eq_conjTranspose, cmap_conjTranspose, ← cmap_mul, mem_orthogonalGroup_iff (Fin n) ℝ |>.mp h, cmap_one]

/-- what one call of `random_interferometer` does, for any value of the generator -/
theorem randomInterferometer_run (lib : Lib) (hl : LibOk lib) (N : ℕ) (real : Bool) (k : ℕ) :
    (∃ U, randomInterferometer lib N real k = some (U, k + calls real) ∧ IsPositiveQR (ginibre lib.rng real N k) (toMatrix N N U) ∧
      (real = true → ∀ i j, (U i j).im = 0)) ∨
    (randomInterferometer lib N real k = none ∧ (ginibre lib.rng real N k).det = 0) := by
  cases real with
  | true =>
    obtain ⟨h1, h2, h3⟩ := hl.1 N (lib.rng k)
    have hrun : randomInterferometer lib N true k = fixPhaseR N (lib.qr N (lib.rng k)) (k + 1) := rfl
    set f := lib.qr N (lib.rng k) with hf
    have hZ : ginibre lib.rng true N k = cmap (toMatrix N N (lib.rng k)) := rfl
    have e : cmap (toMatrix N N f.1) * cmap (toMatrix N N f.2) = ginibre lib.rng true N k := by rw [← cmap_mul, h3, hZ]
    by_cases h0 : ∃ i < N, f.2 i i = 0
    · right
      refine ⟨by rw [hrun]; unfold fixPhaseR; rw [if_pos h0]; rfl, ?_⟩
      obtain ⟨i, hi, h0⟩ := h0
      rw [← e, det_mul, upper_mul_det (cmap (toMatrix N N f.2)) fun i j hij => by simp [toMatrix, h2 i i.2 j hij], Finset.prod_eq_zero (Finset.mem_univ ⟨i, hi⟩), mul_zero]
      simp [toMatrix, h0]
    · left
      refine ⟨fun i j => ((f.1 i j * (f.2 j j / |f.2 j j|) : ℝ) : ℂ), by rw [hrun]; unfold fixPhaseR; rw [if_neg h0]; rfl, ?_, fun _ i j => Complex.ofReal_im _⟩
      push Not at h0
      have hp := positiveQR_phase (cmap (toMatrix N N f.1)) (cmap (toMatrix N N f.2)) _ (map_unitary _ h1) (fun i j hij => by simp [toMatrix, h2 i i.2 j hij]) e
        fun i => by simpa [toMatrix] using h0 i i.2
      convert hp using 1
      ext i j
      rw [mul_diagonal]
      simp [toMatrix]
  | false =>
    set z : CArr := fun i j => (((lib.rng k i j : ℝ) : ℂ) + Complex.I * ((lib.rng (k + 1) i j : ℝ) : ℂ)) / (Real.sqrt 2 : ℂ) with hz
    obtain ⟨h1, h2, h3⟩ := hl.2 N z
    have hrun : randomInterferometer lib N false k = fixPhaseC N (lib.qrc N z) (k + 2) := rfl
    set f := lib.qrc N z with hf
    have hZ : ginibre lib.rng false N k = toMatrix N N z := rfl
    have e : toMatrix N N f.1 * toMatrix N N f.2 = ginibre lib.rng false N k := by rw [h3, hZ]
    by_cases h0 : ∃ i < N, f.2 i i = 0
    · right
      refine ⟨by rw [hrun]; unfold fixPhaseC; rw [if_pos h0]; rfl, ?_⟩
      obtain ⟨i, hi, h0⟩ := h0
      rw [← e, det_mul, upper_mul_det (toMatrix N N f.2) fun i j hij => h2 i i.2 j hij, Finset.prod_eq_zero (Finset.mem_univ ⟨i, hi⟩), mul_zero]
      simp [toMatrix, h0]
    · left
      refine ⟨fun i j => f.1 i j * (f.2 j j / (‖f.2 j j‖ : ℂ)), by rw [hrun]; unfold fixPhaseC; rw [if_neg h0]; rfl, ?_, by simp⟩
      push Not at h0
      have hp := positiveQR_phase (toMatrix N N f.1) (toMatrix N N f.2) _ h1 (fun i j hij => h2 i i.2 j hij) e fun i => h0 i i.2
      convert hp using 1
      ext i j
      rw [mul_diagonal]
      simp [toMatrix]

/-- C50: whatever numbers are drawn, an interferometer without NaN is unitary, and real (hence orthogonal) if asked for; it is the unitary factor
of the drawn matrix in the QR decomposition with positive diagonal, however LAPACK computes one. -/
theorem randomInterferometer_correct (lib : Lib) (hl : LibOk lib) (N : ℕ) (real : Bool) (k k' : ℕ) (U : CArr)
    (h : randomInterferometer lib N real k = some (U, k')) :
    toMatrix N N U ∈ unitaryGroup (Fin N) ℂ ∧ (real = true → ∀ i j, (U i j).im = 0) ∧ IsPositiveQR (ginibre lib.rng real N k) (toMatrix N N U) ∧
      k' = k + calls real := by
  rcases randomInterferometer_run lib hl N real k with ⟨V, h1, h2, h3⟩ | ⟨h1, h2⟩
  · rw [h1] at h
    simp only [Option.some.injEq, Prod.mk.injEq] at h
    obtain ⟨rfl, rfl⟩ := h
    exact ⟨h2.1, h3, h2, rfl⟩
  · rw [h1] at h; simp at h

/-- C50: NaN entries appear exactly if the drawn matrix is singular. -/
theorem randomInterferometer_defined (lib : Lib) (hl : LibOk lib) (N : ℕ) (real : Bool) (k : ℕ) :
    (∃ r, randomInterferometer lib N real k = some r) ↔ (ginibre lib.rng real N k).det ≠ 0 := by
  rcases randomInterferometer_run lib hl N real k with ⟨V, h1, h2, h3⟩ | ⟨h1, h2⟩
  · exact ⟨fun _ => positiveQR_det _ _ h2, fun _ => ⟨_, h1⟩⟩
  · rw [h1]; simp [h2]

/-- C50: whatever numbers are drawn, a random symplectic matrix without NaN preserves the commutation relations; a passive one is also
orthogonal, and with `block_diag` positions and momenta do not mix. -/
theorem randomSymplectic_correct (lib : Lib) (hl : LibOk lib) (N : ℕ) (passive bd : Bool) (scale : ℝ) (k k' : ℕ) (S : RArr)
    (h : randomSymplectic lib N passive bd scale k = some (S, k')) :
    IsSymp N S ∧ (passive = true → phase N N S * (phase N N S)ᵀ = 1) ∧ (bd = true → ∀ i j, i < N → j < N → S i (N + j) = 0 ∧ S (N + i) j = 0) := by
  unfold randomSymplectic at h
  rw [bind_eq] at h
  obtain ⟨U, l, hU, h⟩ := h
  obtain ⟨u1, u2, -, -⟩ := randomInterferometer_correct lib hl N bd k l U hU
  have hO : block N N (fun i j => (U i j).re) (fun i j => -(U i j).im) (fun i j => (U i j).im) (fun i j => (U i j).re) = interferometer N N U := rfl
  have hbd : ∀ W : CArr, (bd = true → ∀ i j, (W i j).im = 0) → bd = true → ∀ i j, i < N → j < N → interferometer N N W i (N + j) = 0 ∧ interferometer N N W (N + i) j = 0 := by
    intro W hW hb i j hi hj
    simp [interferometer, block, hi, hj, hW hb]
  simp only [hO] at h
  cases passive with
  | true =>
    simp only [if_true] at h
    rw [pure_eq] at h
    obtain ⟨rfl, -⟩ := h
    exact ⟨(interferometer_symplectic_iff N U).mpr u1, fun _ => interferometer_orthogonal N U u1, hbd U u2⟩
  | false =>
    simp only [Bool.false_eq_true, if_false] at h
    rw [bind_eq] at h
    obtain ⟨W, l', hW, h⟩ := h
    obtain ⟨w1, w2, -, -⟩ := randomInterferometer_correct lib hl N bd l l' W hW
    rw [bind_eq] at h
    obtain ⟨c, l'', -, h⟩ := h
    rw [pure_eq] at h
    obtain ⟨rfl, -⟩ := h
    have hP : block N N (fun i j => (W i j).re) (fun i j => -(W i j).im) (fun i j => (W i j).im) (fun i j => (W i j).re) = interferometer N N W := rfl
    rw [hP]
    set r : ℕ → ℝ := fun i => scale * ‖c 0 i‖
    set Sq : RArr := fun i j => if i = j then (if i < N then Real.exp (-r i) else Real.exp (r (i - N))) else 0 with hSq
    have hs : phase N N Sq = fromBlocks (diagonal fun i : Fin N => Real.exp (-r i)) 0 0 (diagonal fun i : Fin N => Real.exp (r i)) := by
      ext p q
      rcases p with p | p <;> rcases q with q | q
      · by_cases hpq : p = q
        · subst hpq; simp [phase, quad, hSq]
        · have : (p : ℕ) ≠ q := fun h => hpq (Fin.ext h)
          simp [phase, quad, hSq, hpq, this]
      · have : (p : ℕ) ≠ N + q := by omega
        simp [phase, quad, hSq, this]
      · have : N + (p : ℕ) ≠ q := by omega
        simp [phase, quad, hSq, this]
      · by_cases hpq : p = q
        · subst hpq; simp [phase, quad, hSq]
        · have : (p : ℕ) ≠ q := fun h => hpq (Fin.ext h)
          simp [phase, quad, hSq, hpq, this]
    refine ⟨?_, by simp, ?_⟩
    · unfold IsSymp
      rw [phase_mmul, phase_mmul, hs]
      refine mul_mem (mul_mem ((interferometer_symplectic_iff N U).mpr u1) (symp_diag _ _ ?_)) ((interferometer_symplectic_iff N W).mpr w1)
      rw [diagonal_transpose, diagonal_mul_diagonal, ← diagonal_one]
      congr 1; funext i
      rw [← Real.exp_add]; simp
    · intro hb i j hi hj
      have hm := phase_mmul N N N (mmul (2 * N) (interferometer N N U) Sq) (interferometer N N W)
      rw [phase_mmul N N N (interferometer N N U) Sq, hs, phase_interferometer, phase_interferometer] at hm
      have hz : ∀ V : CArr, (bd = true → ∀ i j, (V i j).im = 0) → (toMatrix N N fun i j => (V i j).im) = 0 := by
        intro V hV; ext i j; simp [toMatrix, hV hb]
      rw [hz U u2, hz W w2, neg_zero, fromBlocks_multiply, fromBlocks_multiply] at hm
      have e1 := congrFun (congrFun hm (Sum.inl ⟨i, hi⟩)) (Sum.inr ⟨j, hj⟩)
      have e2 := congrFun (congrFun hm (Sum.inr ⟨i, hi⟩)) (Sum.inl ⟨j, hj⟩)
      simp [phase, quad] at e1 e2
      exact ⟨e1, e2⟩

/-- C50: whatever numbers are drawn, a random covariance matrix without NaN obeys the uncertainty relation; with `pure` it is the covariance of a pure
state, and with `block_diag` positions and momenta are uncorrelated. -/
theorem randomCovariance_correct (lib : Lib) (hl : LibOk lib) (N : ℕ) (hbar : ℝ) (hh : 0 < hbar) (pureState bd : Bool) (k k' : ℕ) (V : RArr)
    (h : randomCovariance lib N hbar pureState bd k = some (V, k')) :
    Physical (phase N N V) hbar ∧ (pureState = true → ((2 / hbar) • phase N N V).det = 1 ∧ (2 / hbar) • phase N N V ∈ symplecticGroup (Fin N) ℝ) ∧
      (bd = true → ∀ i j, i < N → j < N → V i (N + j) = 0 ∧ V (N + i) j = 0) := by
  unfold randomCovariance at h
  rw [bind_eq] at h
  obtain ⟨S, l, hS, h⟩ := h
  obtain ⟨s1, -, s3⟩ := randomSymplectic_correct lib hl N false bd 1 k l S hS
  -- the covariance is `S D Sᵀ` with a diagonal `D`
  have key : ∀ d : ℕ → ℝ, (∀ i, 1 ≤ d i) → ∀ V : RArr, phase N N V = phase N N S * diagonal (Sum.elim (fun i : Fin N => hbar / 2 * d i) fun i : Fin N => hbar / 2 * d i) * (phase N N S)ᵀ →
      Physical (phase N N V) hbar ∧ (bd = true → ∀ i j, i < N → j < N → V i (N + j) = 0 ∧ V (N + i) j = 0) := by
    intro d hd V hV
    constructor
    · have hsp : SympSpectrum (phase N N V) (fun i : Fin N => hbar / 2 * d i) :=
        ⟨fun i => mul_pos (by linarith) (by linarith [hd i]), phase N N S, s1, hV⟩
      refine (physical_iff_spectrum _ hbar hh.le _ hsp).mpr fun i => ?_
      nlinarith [hd i]
    · intro hb i j hi hj
      have hSb : phase N N S = fromBlocks (phase N N S).toBlocks₁₁ 0 0 (phase N N S).toBlocks₂₂ := by
        conv_lhs => rw [← fromBlocks_toBlocks (phase N N S)]
        congr 1
        · ext i j; exact (s3 hb i j i.2 j.2).1
        · ext i j; exact (s3 hb i j i.2 j.2).2
      rw [hSb, ← fromBlocks_diagonal, fromBlocks_transpose, fromBlocks_multiply, fromBlocks_multiply] at hV
      have e1 := congrFun (congrFun hV (Sum.inl ⟨i, hi⟩)) (Sum.inr ⟨j, hj⟩)
      have e2 := congrFun (congrFun hV (Sum.inr ⟨i, hi⟩)) (Sum.inl ⟨j, hj⟩)
      simp only [fromBlocks_apply₁₂, fromBlocks_apply₂₁, transpose_zero, Matrix.mul_zero, Matrix.zero_mul, add_zero, Matrix.zero_apply] at e1 e2
      exact ⟨e1, e2⟩
  cases pureState with
  | true =>
    simp only [if_true] at h
    rw [pure_eq] at h
    obtain ⟨rfl, -⟩ := h
    have e : phase N N (mmul (2 * N) (fun i j => hbar / 2 * S i j) (tr S)) = (hbar / 2) • (phase N N S * (phase N N S)ᵀ) := by
      rw [phase_mmul, phase_tr, ← Matrix.smul_mul]
      rfl
    obtain ⟨k1, k2⟩ := key (fun _ => 1) (fun _ => le_refl _) _ (by
      rw [e]
      have : diagonal (Sum.elim (fun _ : Fin N => hbar / 2 * 1) fun _ : Fin N => hbar / 2 * 1) = (hbar / 2) • (1 : Matrix (Fin N ⊕ Fin N) (Fin N ⊕ Fin N) ℝ) := by
        ext p q; rcases p with p | p <;> rcases q with q | q <;> simp [diagonal_apply, one_apply]
      rw [this]; simp)
    have hm : (2 / hbar) • phase N N (mmul (2 * N) (fun i j => hbar / 2 * S i j) (tr S)) ∈ symplecticGroup (Fin N) ℝ := by
      rw [e, smul_smul, show 2 / hbar * (hbar / 2) = 1 by field_simp, one_smul]
      exact mul_mem s1 (SymplecticGroup.transpose_mem s1)
    exact ⟨k1, fun _ => ⟨(physical_pure_iff _ hbar hh k1).mpr hm, hm⟩, k2⟩
  | false =>
    simp only [Bool.false_eq_true, if_false] at h
    rw [bind_eq] at h
    obtain ⟨u, l', -, h⟩ := h
    rw [pure_eq] at h
    obtain ⟨hV, -⟩ := h
    obtain ⟨k1, k2⟩ := key (fun i => 2 * |u 0 i| + 1) (fun i => by have := abs_nonneg (u 0 i); linarith) V (by
      rw [← hV, phase_mmul, phase_mmul, phase_tr]
      congr 2
      ext p q
      rcases p with p | p <;> rcases q with q | q
      · by_cases hpq : p = q
        · subst hpq; simp [phase, quad]
        · have : (p : ℕ) ≠ q := fun h => hpq (Fin.ext h)
          simp [phase, quad, hpq, this]
      · have : (p : ℕ) ≠ N + q := by omega
        simp [phase, quad, this]
      · have : N + (p : ℕ) ≠ q := by omega
        simp [phase, quad, this]
      · by_cases hpq : p = q
        · subst hpq; simp [phase, quad]
        · have : (p : ℕ) ≠ q := fun h => hpq (Fin.ext h)
          simp [phase, quad, hpq, this])
    exact ⟨k1, by simp, k2⟩

/-! ### block and banded interferometers -/

theorem toMatrix_block (n m : ℕ) (A B : CArr) :
    (toMatrix (n + m) (n + m) (block n n A (fun _ _ => 0) (fun _ _ => 0) B)).submatrix finSumFinEquiv finSumFinEquiv =
      fromBlocks (toMatrix n n A) 0 0 (toMatrix m m B) := by
  ext p q
  rcases p with p | p <;> rcases q with q | q <;> simp [toMatrix, block]

theorem unitary_submatrix {l m : Type*} [Fintype l] [DecidableEq l] [Fintype m] [DecidableEq m] (e : l ≃ m) (A : Matrix m m ℂ) :
    A.submatrix e e ∈ unitaryGroup l ℂ ↔ A ∈ unitaryGroup m ℂ := by
  rw [mem_unitaryGroup_iff, mem_unitaryGroup_iff, star_eq_conjTranspose, star_eq_conjTranspose, conjTranspose_submatrix, submatrix_mul_equiv]
  constructor
  · intro h
    have := congrArg (fun M : Matrix l l ℂ => M.submatrix e.symm e.symm) h
    simpa using this
  · intro h; rw [h]; simp

theorem blockDiag_unitary (L : List (ℕ × CArr)) (h : ∀ p ∈ L, toMatrix p.1 p.1 p.2 ∈ unitaryGroup (Fin p.1) ℂ) :
    toMatrix (Rnd.blockDiag L).1 (Rnd.blockDiag L).1 (Rnd.blockDiag L).2 ∈ unitaryGroup (Fin (Rnd.blockDiag L).1) ℂ := by
  induction L with
  | nil => rw [mem_unitaryGroup_iff]; ext i; exact i.elim0
  | cons p L ih =>
    obtain ⟨n, A⟩ := p
    have h1 := h (n, A) (by simp)
    have h2 := ih fun p hp => h p (by simp [hp])
    show toMatrix (n + (Rnd.blockDiag L).1) (n + (Rnd.blockDiag L).1) (block n n A (fun _ _ => 0) (fun _ _ => 0) (Rnd.blockDiag L).2) ∈ unitaryGroup (Fin (n + (Rnd.blockDiag L).1)) ℂ
    rw [← unitary_submatrix finSumFinEquiv, toMatrix_block]
    rw [mem_unitaryGroup_iff, star_eq_conjTranspose] at h1 h2 ⊢
    rw [fromBlocks_conjTranspose, fromBlocks_multiply]
    simp [h1, h2]

theorem blockDiag_size (L : List (ℕ × CArr)) : (Rnd.blockDiag L).1 = (L.map Prod.fst).sum := by
  induction L with
  | nil => rfl
  | cons p L ih => obtain ⟨n, A⟩ := p; simp [Rnd.blockDiag, ih]

/-- blocks of size two, except possibly the last one, of size one -/
def Pairs : List (ℕ × CArr) → Prop
  | [] => True
  | [(n, _)] => n = 1 ∨ n = 2
  | (n, _) :: L => n = 2 ∧ Pairs L

theorem blockDiag_pairs (L : List (ℕ × CArr)) (h : Pairs L) (i j : ℕ) (hij : i / 2 ≠ j / 2) : (Rnd.blockDiag L).2 i j = 0 := by
  induction L generalizing i j with
  | nil => rfl
  | cons p L ih =>
    obtain ⟨n, A⟩ := p
    simp only [Rnd.blockDiag, block]
    cases L with
    | nil =>
      rcases h with rfl | rfl <;> split_ifs <;> first | rfl | omega
    | cons q L =>
      obtain ⟨rfl, h⟩ := h
      split_ifs
      · omega
      · rfl
      · rfl
      · exact ih h _ _ (by omega)

theorem interferometers_spec (lib : Lib) (hl : LibOk lib) (s : ℕ) (real : Bool) (c k k' : ℕ) (L : List (ℕ × CArr))
    (h : interferometers lib s real c k = some (L, k')) :
    L.length = c ∧ (∀ p ∈ L, p.1 = s) ∧ (∀ p ∈ L, toMatrix p.1 p.1 p.2 ∈ unitaryGroup (Fin p.1) ℂ) ∧ (real = true → ∀ p ∈ L, ∀ i j, (p.2 i j).im = 0) := by
  induction c generalizing k k' L with
  | zero =>
    unfold interferometers at h
    rw [pure_eq] at h
    obtain ⟨rfl, -⟩ := h
    simp
  | succ c ih =>
    unfold interferometers at h
    rw [bind_eq] at h
    obtain ⟨U, l, hU, h⟩ := h
    rw [bind_eq] at h
    obtain ⟨R, l', hR, h⟩ := h
    rw [pure_eq] at h
    obtain ⟨rfl, -⟩ := h
    obtain ⟨a1, a2, a3, a4⟩ := ih _ _ _ hR
    obtain ⟨u1, u2, -, -⟩ := randomInterferometer_correct lib hl s real k l U hU
    refine ⟨by simp [a1], ?_, ?_, ?_⟩
    · intro p hp
      rcases List.mem_cons.mp hp with rfl | hp
      · rfl
      · exact a2 p hp
    · intro p hp
      rcases List.mem_cons.mp hp with rfl | hp
      · exact u1
      · exact a3 p hp
    · intro hr p hp
      rcases List.mem_cons.mp hp with rfl | hp
      · exact u2 hr
      · exact a4 hr p hp

theorem blockDiag_real (L : List (ℕ × CArr)) (h : ∀ p ∈ L, ∀ i j, (p.2 i j).im = 0) (i j : ℕ) : ((Rnd.blockDiag L).2 i j).im = 0 := by
  induction L generalizing i j with
  | nil => rfl
  | cons p L ih =>
    obtain ⟨n, A⟩ := p
    have h1 := h (n, A) (by simp)
    have h2 := ih fun p hp => h p (by simp [hp])
    simp only [Rnd.blockDiag, block]
    split_ifs
    · exact h1 _ _
    · rfl
    · rfl
    · exact h2 _ _

theorem pairs_of_two (L : List (ℕ × CArr)) (h : ∀ p ∈ L, p.1 = 2) (T : List (ℕ × CArr)) (hT : Pairs T) : Pairs (L ++ T) := by
  induction L with
  | nil => exact hT
  | cons p L ih =>
    have h1 := h p (by simp)
    have h2 := ih fun p hp => h p (by simp [hp])
    obtain ⟨n, A⟩ := p
    show Pairs ((n, A) :: (L ++ T))
    cases hLT : L ++ T with
    | nil => exact Or.inr h1
    | cons q R => exact ⟨h1, hLT ▸ h2⟩

theorem blockDiag_top (U : CArr) (L : List (ℕ × CArr)) (h : Pairs L) (i j : ℕ) (hij : (i + 1) / 2 ≠ (j + 1) / 2) : (Rnd.blockDiag ((1, U) :: L)).2 i j = 0 := by
  simp only [Rnd.blockDiag, block]
  split_ifs
  · omega
  · rfl
  · rfl
  · exact blockDiag_pairs L h _ _ (by omega)

theorem sizes_sum (L : List (ℕ × CArr)) (s : ℕ) (h : ∀ p ∈ L, p.1 = s) : (L.map Prod.fst).sum = s * L.length := by
  induction L with
  | nil => simp
  | cons p L ih => simp [ih fun p hp => h p (by simp [hp]), h p (by simp)]; ring

/-- C50: a block interferometer without NaN is an `N × N` unitary whose entries vanish outside the blocks `{0, 1}, {2, 3}, …`, or with `top_one`
outside the blocks `{0}, {1, 2}, {3, 4}, …`; it is real if asked for.  For `N = 0` and `top_one = True` the array returned is `2 × 2`. -/
theorem randomBlockInterferometer_correct (lib : Lib) (hl : LibOk lib) (N : ℕ) (topOne real : Bool) (k k' : ℕ) (n : ℕ) (U : CArr)
    (h : randomBlockInterferometer lib N topOne real k = some ((n, U), k')) :
    (n = if N = 0 ∧ topOne = true then 2 else N) ∧ toMatrix n n U ∈ unitaryGroup (Fin n) ℂ ∧ (real = true → ∀ i j, (U i j).im = 0) ∧
      ∀ i j, (i + topOne.toNat) / 2 ≠ (j + topOne.toNat) / 2 → U i j = 0 := by
  unfold randomBlockInterferometer at h
  by_cases he : N % 2 = 0
  · rw [if_pos he] at h
    cases topOne with
    | true =>
      simp only [if_true] at h
      rw [bind_eq] at h
      obtain ⟨L, l1, hL, h⟩ := h
      rw [bind_eq] at h
      obtain ⟨u0, l2, h0, h⟩ := h
      rw [bind_eq] at h
      obtain ⟨u1, l3, h1, h⟩ := h
      rw [pure_eq] at h
      obtain ⟨h, -⟩ := h
      obtain ⟨a1, a2, a3, a4⟩ := interferometers_spec lib hl 2 real _ k l1 L hL
      obtain ⟨b1, b2, -, -⟩ := randomInterferometer_correct lib hl 1 real _ _ u0 h0
      obtain ⟨c1, c2, -, -⟩ := randomInterferometer_correct lib hl 1 real _ _ u1 h1
      have e1 := congrArg Prod.fst h
      have e2 := congrArg Prod.snd h
      dsimp only at e1 e2
      have hu := blockDiag_unitary ((1, u0) :: L ++ [(1, u1)]) (by
        intro p hp
        simp only [List.cons_append, List.mem_cons, List.mem_append, List.not_mem_nil, or_false] at hp
        rcases hp with rfl | hp | rfl
        · exact b1
        · exact a3 p hp
        · exact c1)
      have hs := blockDiag_size ((1, u0) :: L ++ [(1, u1)])
      rw [h] at hu
      refine ⟨?_, hu, ?_, ?_⟩
      · rw [← e1, hs]
        simp only [List.cons_append, List.map_cons, List.map_append, List.map_nil, List.sum_cons, List.sum_append, List.sum_nil, sizes_sum L 2 a2, a1]
        by_cases hN : N = 0
        · subst hN; simp
        · simp only [hN, false_and, if_false]; omega
      · intro hr i j
        rw [← e2]
        refine blockDiag_real _ ?_ i j
        intro p hp
        simp only [List.cons_append, List.mem_cons, List.mem_append, List.not_mem_nil, or_false] at hp
        rcases hp with rfl | hp | rfl
        · exact b2 hr
        · exact a4 hr p hp
        · exact c2 hr
      · intro i j hij
        rw [← e2]
        exact blockDiag_top u0 (L ++ [(1, u1)]) (pairs_of_two L a2 _ (Or.inl rfl)) i j hij
    | false =>
      simp only [Bool.false_eq_true, if_false] at h
      rw [bind_eq] at h
      obtain ⟨L, l1, hL, h⟩ := h
      rw [pure_eq] at h
      obtain ⟨h, -⟩ := h
      obtain ⟨a1, a2, a3, a4⟩ := interferometers_spec lib hl 2 real _ k l1 L hL
      have e1 := congrArg Prod.fst h
      have e2 := congrArg Prod.snd h
      dsimp only at e1 e2
      have hu := blockDiag_unitary L a3
      have hs := blockDiag_size L
      rw [h] at hu
      refine ⟨?_, hu, ?_, ?_⟩
      · rw [← e1, hs, sizes_sum L 2 a2, a1]
        simp; omega
      · intro hr i j
        rw [← e2]
        exact blockDiag_real _ (a4 hr) i j
      · intro i j hij
        rw [← e2]
        have := pairs_of_two L a2 [] trivial
        rw [List.append_nil] at this
        exact blockDiag_pairs L this i j hij
  · rw [if_neg he] at h
    rw [bind_eq] at h
    obtain ⟨L, l1, hL, h⟩ := h
    rw [bind_eq] at h
    obtain ⟨u0, l2, h0, h⟩ := h
    obtain ⟨a1, a2, a3, a4⟩ := interferometers_spec lib hl 2 real _ k l1 L hL
    obtain ⟨b1, b2, -, -⟩ := randomInterferometer_correct lib hl 1 real _ _ u0 h0
    have hN : N ≠ 0 := by rintro rfl; simp at he
    have pos : ∀ p, p ∈ ((1, u0) :: L) ∨ p ∈ L ++ [(1, u0)] → p = (1, u0) ∨ p ∈ L := by
      intro p hp
      simp only [List.mem_cons, List.mem_append, List.not_mem_nil, or_false] at hp
      tauto
    cases topOne with
    | true =>
      simp only [if_true] at h
      rw [pure_eq] at h
      obtain ⟨h, -⟩ := h
      have e1 := congrArg Prod.fst h
      have e2 := congrArg Prod.snd h
      dsimp only at e1 e2
      have hu := blockDiag_unitary ((1, u0) :: L) (by
        intro p hp
        rcases pos p (Or.inl hp) with rfl | hp
        · exact b1
        · exact a3 p hp)
      have hs := blockDiag_size ((1, u0) :: L)
      rw [h] at hu
      refine ⟨?_, hu, ?_, ?_⟩
      · rw [← e1, hs]
        simp only [List.map_cons, List.sum_cons, sizes_sum L 2 a2, a1, hN, false_and, if_false]
        omega
      · intro hr i j
        rw [← e2]
        refine blockDiag_real _ ?_ i j
        intro p hp
        rcases pos p (Or.inl hp) with rfl | hp
        · exact b2 hr
        · exact a4 hr p hp
      · intro i j hij
        rw [← e2]
        have := pairs_of_two L a2 [] trivial
        rw [List.append_nil] at this
        exact blockDiag_top u0 L this i j hij
    | false =>
      simp only [Bool.false_eq_true, if_false] at h
      rw [pure_eq] at h
      obtain ⟨h, -⟩ := h
      have e1 := congrArg Prod.fst h
      have e2 := congrArg Prod.snd h
      dsimp only at e1 e2
      have hu := blockDiag_unitary (L ++ [(1, u0)]) (by
        intro p hp
        rcases pos p (Or.inr hp) with rfl | hp
        · exact b1
        · exact a3 p hp)
      have hs := blockDiag_size (L ++ [(1, u0)])
      rw [h] at hu
      refine ⟨?_, hu, ?_, ?_⟩
      · rw [← e1, hs]
        simp only [List.map_cons, List.map_append, List.map_nil, List.sum_cons, List.sum_append, List.sum_nil, sizes_sum L 2 a2, a1, hN, false_and, if_false]
        omega
      · intro hr i j
        rw [← e2]
        refine blockDiag_real _ ?_ i j
        intro p hp
        rcases pos p (Or.inr hp) with rfl | hp
        · exact b2 hr
        · exact a4 hr p hp
      · intro i j hij
        rw [← e2]
        exact blockDiag_pairs (L ++ [(1, u0)]) (pairs_of_two L a2 [(1, u0)] (Or.inl rfl)) i j hij

theorem bandedLoop_spec (lib : Lib) (hl : LibOk lib) (N : ℕ) (hN : N ≠ 0) (real : Bool) (w : ℕ) (topOne : Bool) (U : CArr) (b : ℕ) (k k' : ℕ) (V : CArr)
    (hU : toMatrix N N U ∈ unitaryGroup (Fin N) ℂ) (hr : real = true → ∀ i j, (U i j).im = 0) (hb : ∀ i j, b < max i j - min i j → U i j = 0)
    (h : bandedLoop lib N real w topOne U k = some (V, k')) :
    toMatrix N N V ∈ unitaryGroup (Fin N) ℂ ∧ (real = true → ∀ i j, (V i j).im = 0) ∧ ∀ i j, b + w < max i j - min i j → V i j = 0 := by
  induction w generalizing topOne U b k with
  | zero =>
    unfold bandedLoop at h
    rw [pure_eq] at h
    obtain ⟨rfl, -⟩ := h
    exact ⟨hU, hr, hb⟩
  | succ w ih =>
    unfold bandedLoop at h
    rw [bind_eq] at h
    obtain ⟨⟨n, B⟩, l, hB, h⟩ := h
    obtain ⟨b1, b2, b3, b4⟩ := randomBlockInterferometer_correct lib hl N topOne real k l n B hB
    simp only [hN, false_and, if_false] at b1
    subst b1
    have hmul : toMatrix n n (mmul n U B) ∈ unitaryGroup (Fin n) ℂ := by
      rw [toMatrix_mmul]; exact mul_mem hU b2
    have := ih (!topOne) (mmul n U B) (b + 1) l hmul ?_ ?_ h
    · rw [show b + 1 + w = b + (w + 1) by ring] at this; exact this
    · intro hre i j
      simp only [mmul, dot_sum]
      rw [Complex.im_sum]
      refine Finset.sum_eq_zero fun x _ => ?_
      rw [Complex.mul_im, hr hre, b3 hre]; simp
    · intro i j hij
      simp only [mmul, dot_sum]
      refine Finset.sum_eq_zero fun x _ => ?_
      by_cases hx : b < max i x - min i x
      · rw [hb i x hx, zero_mul]
      · rw [b4 x j ?_, mul_zero]
        cases topOne <;> simp only [Bool.toNat_true, Bool.toNat_false] <;> omega

/-- C50: `random_banded_interferometer` raises exactly if the bandwidth is not below the number of modes. -/
theorem randomBanded_error (lib : Lib) (N w : ℕ) (topOne real : Bool) :
    randomBandedInterferometer lib N w topOne real = .error .valueError ↔ N ≤ w := by
  unfold randomBandedInterferometer
  split_ifs <;> simp <;> omega

/-- C50: whatever numbers are drawn, a banded interferometer without NaN is unitary, its entries more than `w` places away from the diagonal vanish,
and it is real if asked for. -/
theorem randomBanded_correct (lib : Lib) (hl : LibOk lib) (N w : ℕ) (topOne real : Bool) (p : Rand CArr)
    (hp : randomBandedInterferometer lib N w topOne real = .ok p) (k k' : ℕ) (U : CArr) (h : p k = some (U, k')) :
    toMatrix N N U ∈ unitaryGroup (Fin N) ℂ ∧ (real = true → ∀ i j, (U i j).im = 0) ∧
      ∀ i j, i < N → j < N → (i + w < j ∨ j + w < i) → U i j = 0 := by
  unfold randomBandedInterferometer at hp
  by_cases h1 : N < w + 1
  · rw [if_pos h1] at hp; simp at hp
  rw [if_neg h1] at hp
  by_cases h2 : N = w + 1
  · rw [if_pos h2] at hp
    simp only [Except.ok.injEq] at hp
    subst hp
    obtain ⟨u1, u2, -, -⟩ := randomInterferometer_correct lib hl N real k k' U h
    exact ⟨u1, u2, fun i j hi hj hij => by omega⟩
  · rw [if_neg h2] at hp
    simp only [Except.ok.injEq] at hp
    subst hp
    rw [bind_eq] at h
    obtain ⟨L, l, hL, h⟩ := h
    obtain ⟨a1, a2, a3, a4⟩ := interferometers_spec lib hl 1 real _ k l L hL
    have hsz : (Rnd.blockDiag L).1 = N := by rw [blockDiag_size, sizes_sum L 1 a2, a1, one_mul]
    have hu := blockDiag_unitary L a3
    rw [hsz] at hu
    have hdiag : ∀ (L : List (ℕ × CArr)), (∀ p ∈ L, p.1 = 1) → ∀ i j, i ≠ j → (Rnd.blockDiag L).2 i j = 0 := by
      intro L
      induction L with
      | nil => intro _ i j _; rfl
      | cons p L ih =>
        intro h i j hij
        have hp1 := h p (by simp)
        obtain ⟨n, A⟩ := p
        obtain rfl : n = 1 := hp1
        simp only [Rnd.blockDiag, block]
        split_ifs
        · omega
        · rfl
        · rfl
        · exact ih (fun p hp => h p (by simp [hp])) _ _ (by omega)
    obtain ⟨r1, r2, r3⟩ := bandedLoop_spec lib hl N (by omega) real w topOne (Rnd.blockDiag L).2 0 l k' U hu (fun hr => blockDiag_real L (a4 hr))
      (fun i j hij => hdiag L a2 i j (by omega)) h
    exact ⟨r1, r2, fun i j _ _ hij => r3 i j (by omega)⟩

/-! ### no NaN when no drawn matrix is singular -/

/-- No matrix that can be drawn is singular. -/
def NonsingularDraws (rng : ℕ → RArr) (real : Bool) : Prop := ∀ n k, (ginibre rng real n k).det ≠ 0

/-- the generator that always returns the identity is an example -/
theorem nonsingularDraws_eye (real : Bool) : NonsingularDraws (fun _ => eye) real := by
  intro n k
  have hs : ((Real.sqrt 2 : ℝ) : ℂ) ≠ 0 := by
    have : Real.sqrt 2 ≠ 0 := by positivity
    exact_mod_cast this
  cases real with
  | true =>
    have : ginibre (fun _ => eye) true n k = 1 := by
      ext i j; by_cases hij : i = j
      · subst hij; simp [ginibre, eye]
      · have : (i : ℕ) ≠ j := fun h => hij (Fin.ext h)
        simp [ginibre, eye, hij, this]
    rw [this, det_one]; exact one_ne_zero
  | false =>
    have : ginibre (fun _ => eye) false n k = ((1 + Complex.I) / ((Real.sqrt 2 : ℝ) : ℂ)) • (1 : Matrix (Fin n) (Fin n) ℂ) := by
      ext i j; by_cases hij : i = j
      · subst hij; simp [ginibre, eye]
      · have : (i : ℕ) ≠ j := fun h => hij (Fin.ext h)
        simp [ginibre, eye, hij, this]
    rw [this, det_smul, det_one, mul_one]
    refine pow_ne_zero _ (div_ne_zero ?_ hs)
    intro h
    have := congrArg Complex.re h
    simp at this

theorem randn_defined (lib : Lib) (k : ℕ) : ∃ r, randn lib k = some r := ⟨_, rfl⟩

theorem randnc_defined (lib : Lib) (k : ℕ) : ∃ r, randnc lib k = some r := ⟨_, rfl⟩

theorem bind_defined {α β : Type} {p : Rand α} {f : α → Rand β} {k : ℕ} (h : ∃ r, p k = some r) (hf : ∀ a l, ∃ r, f a l = some r) : ∃ r, (p >>= f) k = some r := by
  obtain ⟨⟨a, l⟩, h⟩ := h
  rw [bind_some h]; exact hf a l

theorem pure_defined {α : Type} (a : α) (k : ℕ) : ∃ r, (pure a : Rand α) k = some r := ⟨_, rfl⟩

variable (lib : Lib) (hl : LibOk lib) (real : Bool) (hr : NonsingularDraws lib.rng real)
include hl hr

theorem interferometer_total (N k : ℕ) : ∃ r, randomInterferometer lib N real k = some r :=
  (randomInterferometer_defined lib hl N real k).mpr (hr N k)

theorem interferometers_total (s c k : ℕ) : ∃ r, interferometers lib s real c k = some r := by
  induction c generalizing k with
  | zero => exact pure_defined _ _
  | succ c ih => exact bind_defined (interferometer_total lib hl real hr s k) fun _ l => bind_defined (ih l) fun _ _ => pure_defined _ _

/-- C50: `random_symplectic` returns no NaN unless a singular matrix is drawn. -/
theorem randomSymplectic_total (N : ℕ) (passive : Bool) (scale : ℝ) (k : ℕ) : ∃ r, randomSymplectic lib N passive real scale k = some r := by
  unfold randomSymplectic
  refine bind_defined (interferometer_total lib hl real hr N k) fun U l => ?_
  cases passive with
  | true => exact pure_defined _ _
  | false => exact bind_defined (interferometer_total lib hl real hr N l) fun _ l => bind_defined (randnc_defined lib l) fun _ _ => pure_defined _ _

/-- C50: `random_covariance` returns no NaN unless a singular matrix is drawn. -/
theorem randomCovariance_total (N : ℕ) (hbar : ℝ) (pureState : Bool) (k : ℕ) : ∃ r, randomCovariance lib N hbar pureState real k = some r := by
  unfold randomCovariance
  refine bind_defined (randomSymplectic_total lib hl real hr N false 1 k) fun U l => ?_
  cases pureState with
  | true => exact pure_defined _ _
  | false => exact bind_defined (randn_defined lib l) fun _ _ => pure_defined _ _

/-- C50: `random_block_interferometer` returns no NaN unless a singular matrix is drawn. -/
theorem randomBlockInterferometer_total (N : ℕ) (topOne : Bool) (k : ℕ) : ∃ r, randomBlockInterferometer lib N topOne real k = some r := by
  unfold randomBlockInterferometer
  by_cases he : N % 2 = 0
  · rw [if_pos he]
    cases topOne with
    | true =>
      exact bind_defined (interferometers_total lib hl real hr _ _ k) fun _ l => bind_defined (interferometer_total lib hl real hr _ l) fun _ l =>
        bind_defined (interferometer_total lib hl real hr _ l) fun _ _ => pure_defined _ _
    | false => exact bind_defined (interferometers_total lib hl real hr _ _ k) fun _ l => pure_defined _ _
  · rw [if_neg he]
    refine bind_defined (interferometers_total lib hl real hr _ _ k) fun _ l => bind_defined (interferometer_total lib hl real hr _ l) fun _ l => ?_
    cases topOne <;> exact pure_defined _ _

/-- C50: `random_banded_interferometer` with a valid bandwidth returns no NaN unless a singular matrix is drawn. -/
theorem randomBanded_total (N w : ℕ) (hw : w < N) (topOne : Bool) (k : ℕ) :
    ∃ p, randomBandedInterferometer lib N w topOne real = .ok p ∧ ∃ r, p k = some r := by
  unfold randomBandedInterferometer
  rw [if_neg (by omega)]
  by_cases h2 : N = w + 1
  · rw [if_pos h2]
    exact ⟨_, rfl, interferometer_total lib hl real hr N k⟩
  · rw [if_neg h2]
    refine ⟨_, rfl, bind_defined (interferometers_total lib hl real hr _ _ k) fun L l => ?_⟩
    generalize (Rnd.blockDiag L).2 = U
    clear h2 hw
    induction w generalizing topOne U l with
    | zero => exact pure_defined _ _
    | succ w ih => exact bind_defined (randomBlockInterferometer_total lib hl real hr N topOne l) fun _ l => ih _ _ _

end Verif.Props
