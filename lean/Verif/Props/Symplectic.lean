/-
C26, C27, C28, C32, C33: gate constructors, expansion, reordering, symplecticity tests, reduction of Gaussian states.
-/
import Verif.Lemmas.Symplectic

set_option linter.unusedSectionVars false
set_option linter.unusedSimpArgs false

namespace Verif.Props
open Verif.Model Verif.Model.Symp Verif.Spec Verif.Lemmas.Symp Matrix

/-! ### C26: gates -/

/-- real and imaginary parts of a complex array -/
theorem phase_interferometer (M N : ℕ) (U : ℕ → ℕ → ℂ) :
    phase M N (interferometer M N U) = fromBlocks (toMatrix M N fun i j => (U i j).re) (-toMatrix M N fun i j => (U i j).im)
      (toMatrix M N fun i j => (U i j).im) (toMatrix M N fun i j => (U i j).re) := by
  unfold interferometer
  rw [phase_block]
  rfl

/-- C26: an interferometer acts on the complex amplitudes by the matrix `U` itself. -/
theorem interferometer_action (M N : ℕ) (U : ℕ → ℕ → ℂ) (v : ℕ → ℝ) (k : ℕ) (hk : k < M) :
    amp M (apply (2 * N) (interferometer M N U) v) k = ∑ j ∈ Finset.range N, U k j * amp N v j := by
  have h1 : apply (2 * N) (interferometer M N U) v k = ∑ j ∈ Finset.range N, ((U k j).re * v j - (U k j).im * v (N + j)) := by
    simp only [apply, two_mul, Finset.sum_range_add]
    rw [← Finset.sum_add_distrib]
    refine Finset.sum_congr rfl fun j hj => ?_
    have := Finset.mem_range.mp hj
    simp [interferometer, block, hk, this]; ring
  have h2 : apply (2 * N) (interferometer M N U) v (M + k) = ∑ j ∈ Finset.range N, ((U k j).im * v j + (U k j).re * v (N + j)) := by
    simp only [apply, two_mul, Finset.sum_range_add]
    rw [← Finset.sum_add_distrib]
    refine Finset.sum_congr rfl fun j hj => ?_
    have := Finset.mem_range.mp hj
    simp [interferometer, block, this]
  apply Complex.ext
  · simp [amp, h1, Complex.re_sum]
  · simp [amp, h2, Complex.im_sum, add_comm]

theorem unitary_iff (n : ℕ) (U : ℕ → ℕ → ℂ) :
    toMatrix n n U ∈ unitaryGroup (Fin n) ℂ ↔
      (toMatrix n n fun i j => (U i j).re) * (toMatrix n n fun i j => (U i j).re)ᵀ
        + (toMatrix n n fun i j => (U i j).im) * (toMatrix n n fun i j => (U i j).im)ᵀ = 1 ∧
      (toMatrix n n fun i j => (U i j).im) * (toMatrix n n fun i j => (U i j).re)ᵀ
        = (toMatrix n n fun i j => (U i j).re) * (toMatrix n n fun i j => (U i j).im)ᵀ := by
  rw [mem_unitaryGroup_iff]
  have key : ∀ i j, (toMatrix n n U * star (toMatrix n n U)) i j
      = (⟨((toMatrix n n fun i j => (U i j).re) * (toMatrix n n fun i j => (U i j).re)ᵀ
        + (toMatrix n n fun i j => (U i j).im) * (toMatrix n n fun i j => (U i j).im)ᵀ) i j,
        ((toMatrix n n fun i j => (U i j).im) * (toMatrix n n fun i j => (U i j).re)ᵀ
        - (toMatrix n n fun i j => (U i j).re) * (toMatrix n n fun i j => (U i j).im)ᵀ) i j⟩ : ℂ) := by
    intro i j
    apply Complex.ext
    · simp [mul_apply, toMatrix, star_apply, Complex.re_sum, ← Finset.sum_add_distrib]
    · simp [mul_apply, toMatrix, star_apply, Complex.im_sum, ← Finset.sum_sub_distrib]
      exact Finset.sum_congr rfl fun x _ => by ring
  constructor
  · intro h
    constructor
    · ext i j
      have := congrFun (congrFun h i) j
      rw [key] at this
      have := congrArg Complex.re this
      simp only at this
      rw [this]
      by_cases hij : i = j <;> simp [one_apply, hij]
    · rw [← sub_eq_zero]
      ext i j
      have := congrFun (congrFun h i) j
      rw [key] at this
      have := congrArg Complex.im this
      simp only at this
      rw [this]
      by_cases hij : i = j <;> simp [one_apply, hij]
  · rintro ⟨h1, h2⟩
    ext i j
    rw [key, h1, h2, sub_self]
    by_cases hij : i = j <;> simp [one_apply, hij] <;> rfl

/-- C26: `interferometer(U)` is symplectic exactly when `U` is unitary. -/
theorem interferometer_symplectic_iff (n : ℕ) (U : ℕ → ℕ → ℂ) :
    IsSymp n (interferometer n n U) ↔ toMatrix n n U ∈ unitaryGroup (Fin n) ℂ := by
  rw [unitary_iff, IsSymp, SymplecticGroup.mem_iff, phase_interferometer, J, fromBlocks_transpose, fromBlocks_multiply, fromBlocks_multiply,
    fromBlocks_inj]
  simp only [Matrix.mul_zero, Matrix.mul_one, zero_add, add_zero, Matrix.mul_neg, Matrix.neg_mul, transpose_neg, neg_neg]
  constructor
  · rintro ⟨h1, h2, h3, h4⟩
    constructor
    · have := h3; rw [← this]
    · rw [← sub_eq_zero]; rw [← neg_eq_zero, ← h1]; abel_nf
  · rintro ⟨h1, h2⟩
    refine ⟨?_, ?_, ?_, ?_⟩
    · rw [h2]; abel
    · rw [← h1]; abel
    · rw [← h1]
    · rw [h2]; abel

/-- C26: a rotation multiplies the complex amplitude by `e^{iθ}` … -/
theorem rotation_action (theta : ℝ) (v : ℕ → ℝ) : amp 1 (apply 2 (rotation theta) v) 0 = Complex.exp (theta * Complex.I) * amp 1 v 0 := by
  have := interferometer_action 1 1 (fun i j => eye i j * ((Real.cos theta : ℝ) + Complex.I * (Real.sin theta : ℝ))) v 0 (by norm_num)
  rw [show (2 : ℕ) = 2 * 1 from rfl, rotation, this]
  simp [eye, Complex.exp_mul_I, mul_comm Complex.I]

/-- … and is symplectic, for every angle. -/
theorem rotation_symplectic (theta : ℝ) : IsSymp 1 (rotation theta) := by
  unfold rotation
  rw [interferometer_symplectic_iff, mem_unitaryGroup_iff]
  ext i j
  fin_cases i; fin_cases j
  simp only [mul_apply, Fin.zero_eta, Fin.isValue, Finset.univ_unique, Fin.default_eq_zero, Finset.sum_singleton, toMatrix, of_apply, star_apply, eye]
  apply Complex.ext
  · simp [← Complex.ofReal_cos, ← Complex.ofReal_sin]; nlinarith [Real.sin_sq_add_cos_sq theta]
  · simp [← Complex.ofReal_cos, ← Complex.ofReal_sin]; ring

/-- C26: a beam splitter mixes the two complex amplitudes … -/
theorem beamSplitter_action (theta phi : ℝ) (v : ℕ → ℝ) :
    amp 2 (apply 4 (beamSplitter theta phi) v) 0
        = Real.cos theta * amp 2 v 0 - Complex.exp (-(phi * Complex.I)) * Real.sin theta * amp 2 v 1 ∧
    amp 2 (apply 4 (beamSplitter theta phi) v) 1
        = Complex.exp (phi * Complex.I) * Real.sin theta * amp 2 v 0 + Real.cos theta * amp 2 v 1 := by
  have h := fun k hk => interferometer_action 2 2 (fun i j => if i = 0 then
      (if j = 0 then ((Real.cos theta : ℝ) : ℂ) else -(starRingEnd ℂ) ((Real.cos phi : ℝ) + Complex.I * (Real.sin phi : ℝ)) * ((Real.sin theta : ℝ) : ℂ))
      else (if j = 0 then (((Real.cos phi : ℝ) + Complex.I * (Real.sin phi : ℝ)) : ℂ) * ((Real.sin theta : ℝ) : ℂ) else ((Real.cos theta : ℝ) : ℂ))) v k hk
  have e : Complex.exp (-(phi * Complex.I)) = (starRingEnd ℂ) ((Real.cos phi : ℝ) + Complex.I * (Real.sin phi : ℝ)) := by
    rw [← neg_mul, Complex.exp_mul_I, Complex.cos_neg, Complex.sin_neg]
    simp [mul_comm Complex.I, ← Complex.ofReal_cos, ← Complex.ofReal_sin]
  have e' : Complex.exp (phi * Complex.I) = (Real.cos phi : ℝ) + Complex.I * (Real.sin phi : ℝ) := by
    rw [Complex.exp_mul_I]; simp [mul_comm Complex.I]
  rw [e, e']
  constructor
  · have h0 := h 0 (by norm_num)
    simp only [Finset.sum_range_succ, Finset.sum_range_zero] at h0
    show amp 2 (apply (2 * 2) (interferometer 2 2 _) v) 0 = _
    rw [h0]; simp; ring
  · have h0 := h 1 (by norm_num)
    simp only [Finset.sum_range_succ, Finset.sum_range_zero] at h0
    show amp 2 (apply (2 * 2) (interferometer 2 2 _) v) 1 = _
    rw [h0]; simp

/-- … and is symplectic, for all angles. -/
theorem beamSplitter_symplectic (theta phi : ℝ) : IsSymp 2 (beamSplitter theta phi) := by
  unfold beamSplitter
  rw [interferometer_symplectic_iff, mem_unitaryGroup_iff]
  have hs := Real.sin_sq_add_cos_sq theta
  have hp := Real.sin_sq_add_cos_sq phi
  ext i j
  fin_cases i <;> fin_cases j <;>
    simp only [mul_apply, Fin.sum_univ_two, toMatrix, of_apply, star_apply, Fin.zero_eta, Fin.mk_one, Fin.isValue, Fin.val_zero, Fin.val_one, if_true,
      one_ne_zero, if_false] <;> apply Complex.ext <;>
    simp [← Complex.ofReal_cos, ← Complex.ofReal_sin] <;>
    first
    | ring1
    | linear_combination hs + (Real.sin theta) ^ 2 * hp

/-- C26: two-mode squeezing sends `α₀ ↦ cosh r α₀ + e^{iφ} sinh r conj α₁` and the same with the modes exchanged … -/
theorem twoModeSqueezing_action (r phi : ℝ) (v : ℕ → ℝ) :
    amp 2 (apply 4 (twoModeSqueezing r phi) v) 0
        = Real.cosh r * amp 2 v 0 + Complex.exp (phi * Complex.I) * Real.sinh r * (starRingEnd ℂ) (amp 2 v 1) ∧
    amp 2 (apply 4 (twoModeSqueezing r phi) v) 1
        = Real.cosh r * amp 2 v 1 + Complex.exp (phi * Complex.I) * Real.sinh r * (starRingEnd ℂ) (amp 2 v 0) := by
  rw [Complex.exp_mul_I]
  constructor <;> apply Complex.ext <;>
    simp [amp, apply, Finset.sum_range_succ, twoModeSqueezing, lit4, ← Complex.ofReal_cos, ← Complex.ofReal_sin, ← Complex.ofReal_cosh,
      ← Complex.ofReal_sinh] <;> ring

/-- … and is symplectic, for all parameters. -/
theorem twoModeSqueezing_symplectic (r phi : ℝ) : IsSymp 2 (twoModeSqueezing r phi) := by
  have hs := Real.cosh_sq r
  have hp := Real.sin_sq_add_cos_sq phi
  rw [IsSymp, SymplecticGroup.mem_iff]
  ext p q
  rcases p with p | p <;> rcases q with q | q <;> fin_cases p <;> fin_cases q <;>
    simp [mul_apply, Fintype.sum_sum_type, Fin.sum_univ_two, phase, quad, J, twoModeSqueezing, lit4, one_apply] <;>
    first
    | ring1
    | linear_combination hs - (Real.sinh r) ^ 2 * hp
    | linear_combination -hs + (Real.sinh r) ^ 2 * hp

/-- closed form of `squeezing` -/
theorem squeezing_entry (r : List ℝ) (phi : List ℝ) (i j : ℕ) (n : ℕ) (hn : n ≤ r.length) :
    forRange n (eye : ℕ → ℕ → ℝ) (fun i S => squeezeOne r.length S i (r.getD i 0) (phi.getD i 0)) i j
      = if i < n ∧ j = i then Real.cosh (r.getD i 0) - Real.sinh (r.getD i 0) * Real.cos (phi.getD i 0)
        else if i < n ∧ j = i + r.length then -Real.sinh (r.getD i 0) * Real.sin (phi.getD i 0)
        else if j < n ∧ i = j + r.length then -Real.sinh (r.getD j 0) * Real.sin (phi.getD j 0)
        else if r.length ≤ i ∧ i < n + r.length ∧ j = i then
          Real.cosh (r.getD (i - r.length) 0) + Real.sinh (r.getD (i - r.length) 0) * Real.cos (phi.getD (i - r.length) 0)
        else eye i j := by
  induction n with
  | zero => simp; intros; omega
  | succ n ih =>
    rw [forRange_succ]
    have ih' := ih (by omega)
    generalize forRange n (eye : ℕ → ℕ → ℝ) (fun i S => squeezeOne r.length S i (r.getD i 0) (phi.getD i 0)) = G at ih' ⊢
    simp only [squeezeOne, upd2]
    have hlen : 0 < r.length := by omega
    by_cases h1 : i = n + r.length ∧ j = n + r.length
    · obtain ⟨rfl, rfl⟩ := h1
      have a1 : ¬ n + r.length < n + 1 := by omega
      have a2 : n + r.length < n + 1 + r.length := by omega
      simp [a1, a2]
    rw [if_neg h1]
    by_cases h2 : i = n + r.length ∧ j = n
    · obtain ⟨rfl, rfl⟩ := h2
      have a1 : ¬ j + r.length < j + 1 := by omega
      simp [a1]
    rw [if_neg h2]
    by_cases h3 : i = n ∧ j = n + r.length
    · obtain ⟨rfl, rfl⟩ := h3
      have a1 : i + r.length ≠ i := by omega
      have a2 : r ≠ [] := by rintro rfl; simp at hlen
      simp [a1, a2]
    rw [if_neg h3]
    by_cases h4 : i = n ∧ j = n
    · obtain ⟨rfl, rfl⟩ := h4
      simp
    rw [if_neg h4]
    have c1 : (i < n + 1 ∧ j = i) ↔ (i < n ∧ j = i) := by omega
    have c2 : (i < n + 1 ∧ j = i + r.length) ↔ (i < n ∧ j = i + r.length) := by omega
    have c3 : (j < n + 1 ∧ i = j + r.length) ↔ (j < n ∧ i = j + r.length) := by omega
    have c4 : (r.length ≤ i ∧ i < n + 1 + r.length ∧ j = i) ↔ (r.length ≤ i ∧ i < n + r.length ∧ j = i) := by omega
    simp only [c1, c2, c3, c4]
    exact ih'

/-- the phases used by `squeezing` -/
theorem squeezing_eq (r : List ℝ) (phi : Option (List ℝ)) (hphi : ∀ l, phi = some l → l.length = r.length) :
    squeezing r phi = forRange r.length eye fun i S => squeezeOne r.length S i (r.getD i 0) ((phi.getD (List.replicate r.length 0)).getD i 0) := by
  unfold squeezing
  cases phi with
  | none => simp
  | some l => simp [hphi l rfl]

theorem squeezing_phase (r : List ℝ) (phi : Option (List ℝ)) (hphi : ∀ l, phi = some l → l.length = r.length) :
    let ph : ℕ → ℝ := fun i => (phi.getD (List.replicate r.length 0)).getD i 0
    phase r.length r.length (squeezing r phi) = fromBlocks
      (diagonal fun i : Fin r.length => Real.cosh (r.getD i 0) - Real.sinh (r.getD i 0) * Real.cos (ph i))
      (diagonal fun i : Fin r.length => -Real.sinh (r.getD i 0) * Real.sin (ph i))
      (diagonal fun i : Fin r.length => -Real.sinh (r.getD i 0) * Real.sin (ph i))
      (diagonal fun i : Fin r.length => Real.cosh (r.getD i 0) + Real.sinh (r.getD i 0) * Real.cos (ph i)) := by
  intro ph
  rw [squeezing_eq r phi hphi]
  ext (p | p) (q | q) <;>
    simp only [phase, quad, of_apply, Sum.elim_inl, Sum.elim_inr, fromBlocks_apply₁₁, fromBlocks_apply₁₂, fromBlocks_apply₂₁, fromBlocks_apply₂₂,
      diagonal_apply, squeezing_entry r (phi.getD (List.replicate r.length 0)) _ _ _ le_rfl]
  · by_cases h : p = q
    · subst h; simp [ph]
    · have h' : (q : ℕ) ≠ p := fun e => h (Fin.ext e.symm)
      have a1 : (q : ℕ) ≠ p + r.length := by omega
      have a2 : (p : ℕ) ≠ q + r.length := by omega
      simp [h, h', a1, a2, eye, Ne.symm h']
  · by_cases h : p = q
    · subst h
      have a1 : r.length + (p : ℕ) ≠ p := by omega
      have a2 : r ≠ [] := by rintro rfl; exact absurd p.2 (by simp)
      simp [a1, a2, add_comm, ph]
    · have h' : (q : ℕ) ≠ p := fun e => h (Fin.ext e.symm)
      have a1 : r.length + (q : ℕ) ≠ p := by omega
      have a2 : ¬ r.length + (q : ℕ) = p + r.length := by omega
      have a3 : ¬ (p : ℕ) = r.length + q + r.length := by omega
      simp [h, a1, a2, a3, eye, Ne.symm a1]
  · by_cases h : p = q
    · subst h
      have a1 : (p : ℕ) ≠ r.length + p := by omega
      have a2 : ¬ (p : ℕ) = r.length + p + r.length := by omega
      have a3 : r.length + (p : ℕ) = p + r.length := by omega
      have a4 : ¬ (p + r.length < r.length) := by omega
      simp [a3, ph, a4]
    · have h' : (q : ℕ) ≠ p := fun e => h (Fin.ext e.symm)
      have a1 : (q : ℕ) ≠ r.length + p := by omega
      have a2 : ¬ r.length + (p : ℕ) = q + r.length := by omega
      simp [h, a1, a2, eye, Ne.symm a1]
  · by_cases h : p = q
    · subst h
      have a1 : r.length + (p : ℕ) ≠ r.length + p + r.length := by omega
      simp [ph]
    · have h' : (q : ℕ) ≠ p := fun e => h (Fin.ext e.symm)
      have a1 : ¬ r.length + (q : ℕ) = r.length + p := by omega
      have a2 : ¬ r.length + (q : ℕ) = r.length + p + r.length := by omega
      have a3 : ¬ r.length + (p : ℕ) = r.length + q + r.length := by omega
      simp [h, h', a2, a3, eye, Ne.symm h']

/-- C26: `squeezing(r, phi)` sends `α_k ↦ cosh r_k α_k - e^{iφ_k} sinh r_k conj α_k` on every mode … -/
theorem squeezing_action (r : List ℝ) (phi : Option (List ℝ)) (hphi : ∀ l, phi = some l → l.length = r.length) (v : ℕ → ℝ) (k : ℕ) (hk : k < r.length) :
    amp r.length (apply (2 * r.length) (squeezing r phi) v) k
      = Real.cosh (r.getD k 0) * amp r.length v k
        - Complex.exp (((phi.getD (List.replicate r.length 0)).getD k 0 : ℝ) * Complex.I) * Real.sinh (r.getD k 0) * (starRingEnd ℂ) (amp r.length v k) := by
  have hP := squeezing_phase r phi hphi
  simp only at hP
  have ent := fun p q => congrFun (congrFun hP p) q
  have hrow : ∀ p : Fin r.length ⊕ Fin r.length, apply (2 * r.length) (squeezing r phi) v (quad r.length p)
      = ∑ q, (phase r.length r.length (squeezing r phi)) p q * v (quad r.length q) := by
    intro p
    rw [apply, ← sum_quad r.length (fun j => squeezing r phi (quad r.length p) j * v j)]
    rfl
  have h1 := hrow (Sum.inl ⟨k, hk⟩)
  have h2 := hrow (Sum.inr ⟨k, hk⟩)
  simp only [hP, Fintype.sum_sum_type, fromBlocks_apply₁₁, fromBlocks_apply₁₂, fromBlocks_apply₂₁, fromBlocks_apply₂₂, diagonal_apply, ite_mul,
    zero_mul, Finset.sum_ite_eq, Finset.mem_univ, if_true, quad, Sum.elim_inl, Sum.elim_inr] at h1 h2
  rw [Complex.exp_mul_I]
  apply Complex.ext
  · simp [amp, h1, ← Complex.ofReal_cos, ← Complex.ofReal_sin, ← Complex.ofReal_cosh, ← Complex.ofReal_sinh]; ring
  · simp [amp, h2, ← Complex.ofReal_cos, ← Complex.ofReal_sin, ← Complex.ofReal_cosh, ← Complex.ofReal_sinh]; ring

/-- … and is symplectic, for all lists of parameters. -/
theorem squeezing_symplectic (r : List ℝ) (phi : Option (List ℝ)) (hphi : ∀ l, phi = some l → l.length = r.length) :
    IsSymp r.length (squeezing r phi) := by
  rw [IsSymp, SymplecticGroup.mem_iff, squeezing_phase r phi hphi, J, fromBlocks_transpose, fromBlocks_multiply, fromBlocks_multiply]
  simp only [Matrix.mul_zero, Matrix.mul_one, zero_add, add_zero, Matrix.mul_neg, Matrix.neg_mul, diagonal_transpose, diagonal_mul_diagonal]
  have key : ∀ x y : ℝ, Real.cosh x ^ 2 - Real.sinh x ^ 2 * (Real.sin y ^ 2 + Real.cos y ^ 2) = 1 := by
    intro x y; rw [Real.sin_sq_add_cos_sq, Real.cosh_sq]; ring
  congr 1
  · rw [diagonal_neg, diagonal_add]
    rw [← diagonal_zero]
    congr 1
    ext i; ring
  · rw [diagonal_neg, diagonal_add, ← diagonal_one, diagonal_neg]
    congr 1
    ext i
    have := key (r.getD i 0) ((phi.getD (List.replicate r.length 0)).getD i 0)
    linear_combination -this
  · rw [diagonal_neg, diagonal_add, ← diagonal_one]
    congr 1
    ext i
    have := key (r.getD i 0) ((phi.getD (List.replicate r.length 0)).getD i 0)
    linear_combination this
  · rw [diagonal_neg, diagonal_add]
    rw [← diagonal_zero]
    congr 1
    ext i; ring

/-- The hypotheses are met by non-trivial gates: two squeezers with different phases, and the Hadamard-like splitter is unitary. -/
example : IsSymp 2 (squeezing [1, 2] (some [0, 1])) := squeezing_symplectic [1, 2] (some [0, 1]) (by simp)

/-! ### C27: expand -/

/-- A call `expand(S, modes, N)` that the code accepts: `S` has `2M` rows, the modes are in range, and either `M = 1` or there are `M`
different modes. -/
def ExpandOK (M : ℕ) (modes : List ℕ) (N : ℕ) : Prop :=
  (∀ m ∈ modes, m < N) ∧ (M = 1 ∨ (modes.Nodup ∧ modes.length = M))

/-- Everything about accepted calls follows from: the result is `1 + P (L S - 1) Pᵀ` for an injection `P` of the selected quadratures and a
unital, multiplicative map `L` preserving symplecticity. -/
theorem expand_package {K : Type} [Field K] (M : ℕ) (modes : List ℕ) (N : ℕ) (h : ExpandOK M modes N) :
    ∃ (α : Type) (_ : Fintype α) (_ : DecidableEq α) (w : α → Fin N) (L : (ℕ → ℕ → K) → Matrix (α ⊕ α) (α ⊕ α) K),
      Function.Injective w ∧ (∀ a, (w a : ℕ) ∈ modes) ∧
      (∀ S, ∃ out, expand (2 * M) S modes N = .ok out ∧ phase N N out = embed (both w) (L S)) ∧
      (∀ S T, L (mmul (2 * M) S T) = L S * L T) ∧ L eye = 1 ∧ (∀ S, IsSymp M S → L S ∈ symplecticGroup α K) := by
  obtain ⟨hb, hM⟩ := h
  by_cases h1 : M = 1
  · subst h1
    exact ⟨{k : Fin N // (k : ℕ) ∈ modes}, inferInstance, inferInstance, Subtype.val, copies _, Subtype.val_injective, fun a => a.2,
      fun S => expand_single S modes N hb, copies_mul, copies_eye, fun S hS => copies_symp S (symp_one_det S hS)⟩
  · obtain ⟨hn, hl⟩ := hM.resolve_left h1
    refine ⟨Fin M, inferInstance, inferInstance, fun a : Fin M => (⟨modes[(a : ℕ)]'(by omega), hb _ (List.getElem_mem _)⟩ : Fin N), phase M M,
      ?_, fun a => List.getElem_mem _, fun S => expand_multi M h1 S modes N hl hn hb, fun S T => phase_mmul M M M S T, phase_eye M, fun S hS => hS⟩
    intro a b h
    exact Fin.ext ((List.Nodup.getElem_inj_iff hn).mp (Fin.mk.inj h))

/-- C27: an expanded symplectic matrix is symplectic. -/
theorem expand_symplectic {K : Type} [Field K] (M : ℕ) (S : ℕ → ℕ → K) (modes : List ℕ) (N : ℕ) (h : ExpandOK M modes N) (hS : IsSymp M S) :
    ∃ out, expand (2 * M) S modes N = .ok out ∧ IsSymp N out := by
  obtain ⟨α, _, _, w, L, hw, -, h1, -, -, h4⟩ := expand_package (K := K) M modes N h
  obtain ⟨out, ho, hp⟩ := h1 S
  exact ⟨out, ho, by rw [IsSymp, hp]; exact embed_symp w hw _ (h4 S hS)⟩

/-- C27: expansion is multiplicative. -/
theorem expand_mul {K : Type} [Field K] (M : ℕ) (S T : ℕ → ℕ → K) (modes : List ℕ) (N : ℕ) (h : ExpandOK M modes N) :
    ∃ s t st, expand (2 * M) S modes N = .ok s ∧ expand (2 * M) T modes N = .ok t ∧ expand (2 * M) (mmul (2 * M) S T) modes N = .ok st ∧
      ∀ i < 2 * N, ∀ j < 2 * N, st i j = mmul (2 * N) s t i j := by
  obtain ⟨α, _, _, w, L, hw, -, h1, h2, -, -⟩ := expand_package (K := K) M modes N h
  obtain ⟨s, hs, ps⟩ := h1 S
  obtain ⟨t, ht, pt⟩ := h1 T
  obtain ⟨st, hst, pst⟩ := h1 (mmul (2 * M) S T)
  refine ⟨s, t, st, hs, ht, hst, ?_⟩
  rw [← phase_ext_iff, phase_mmul N N N, ps, pt, pst, h2, embed_mul _ (both_injective w hw)]

/-- C27: the identity expands to the identity. -/
theorem expand_one {K : Type} [Field K] (M : ℕ) (modes : List ℕ) (N : ℕ) (h : ExpandOK M modes N) :
    ∃ out : ℕ → ℕ → K, expand (2 * M) eye modes N = .ok out ∧ ∀ i < 2 * N, ∀ j < 2 * N, out i j = if i = j then 1 else 0 := by
  obtain ⟨α, _, _, w, L, hw, -, h1, -, h3, -⟩ := expand_package (K := K) M modes N h
  obtain ⟨out, ho, hp⟩ := h1 eye
  refine ⟨out, ho, ?_⟩
  have : phase N N out = phase N N eye := by rw [hp, h3, embed_one, phase_eye]
  exact (phase_ext_iff N N out eye).mp this

/-- C27: gates on disjoint sets of modes commute. -/
theorem expand_commute {K : Type} [Field K] (M M' : ℕ) (S T : ℕ → ℕ → K) (modes modes' : List ℕ) (N : ℕ) (h : ExpandOK M modes N)
    (h' : ExpandOK M' modes' N) (hd : modes.Disjoint modes') :
    ∃ s t, expand (2 * M) S modes N = .ok s ∧ expand (2 * M') T modes' N = .ok t ∧
      ∀ i < 2 * N, ∀ j < 2 * N, mmul (2 * N) s t i j = mmul (2 * N) t s i j := by
  obtain ⟨α, _, _, w, L, hw, hm, h1, -⟩ := expand_package (K := K) M modes N h
  obtain ⟨β, _, _, w', L', hw', hm', h1', -⟩ := expand_package (K := K) M' modes' N h'
  obtain ⟨s, hs, ps⟩ := h1 S
  obtain ⟨t, ht, pt⟩ := h1' T
  refine ⟨s, t, hs, ht, ?_⟩
  rw [← phase_ext_iff, phase_mmul N N N, phase_mmul N N N, ps, pt]
  refine embed_comm (both w) (both w') ?_ _ _
  have hne : ∀ a b, w a ≠ w' b := fun a b e => hd (hm a) (e ▸ hm' b)
  rintro (a | a) (b | b) e <;> simp [both] at e <;> exact hne a b e

/-- C27: on the listed modes (`M` different ones) the result is `S`, entry by entry and quadrature by quadrature; a quadrature of any other
mode is left alone: its row and its column are those of the identity. -/
theorem expand_entries {K : Type} [Field K] (M : ℕ) (S : ℕ → ℕ → K) (modes : List ℕ) (N : ℕ) (hl : modes.length = M) (hn : modes.Nodup)
    (hb : ∀ m ∈ modes, m < N) :
    ∃ out, expand (2 * M) S modes N = .ok out ∧
      (∀ a < M, ∀ b < M, out (modes.getD a 0) (modes.getD b 0) = S a b ∧ out (modes.getD a 0) (N + modes.getD b 0) = S a (M + b) ∧
        out (N + modes.getD a 0) (modes.getD b 0) = S (M + a) b ∧ out (N + modes.getD a 0) (N + modes.getD b 0) = S (M + a) (M + b)) ∧
      (∀ i < 2 * N, ∀ j < 2 * N, (if i < N then i else i - N) ∉ modes → out i j = (if i = j then 1 else 0) ∧ out j i = if j = i then 1 else 0) := by
  have hget : ∀ a < M, ∃ h : a < modes.length, modes.getD a 0 = modes[a] := fun a ha => ⟨by omega, List.getD_eq_getElem _ _ (by omega)⟩
  have mode : ∀ (p : Fin N ⊕ Fin N), (if quad N p < N then quad N p else quad N p - N) = Sum.elim (fun k : Fin N => (k : ℕ)) (fun k : Fin N => (k : ℕ)) p := by
    rintro (k | k) <;> simp [quad]
  by_cases h1 : M = 1
  · subst h1
    obtain ⟨m, rfl⟩ := List.length_eq_one_iff.mp hl
    obtain ⟨out, ho, hp⟩ := expand_single S [m] N hb
    have hm : m < N := hb m (by simp)
    refine ⟨out, ho, ?_, ?_⟩
    · intro a ha b hb'
      obtain rfl : a = 0 := by omega
      obtain rfl : b = 0 := by omega
      have key : ∀ p q, out (quad N (both Subtype.val p)) (quad N (both Subtype.val q)) = copies {k : Fin N // (k : ℕ) ∈ [m]} S p q := by
        intro p q
        have := embed_apply (both Subtype.val) (both_injective _ Subtype.val_injective) (copies {k : Fin N // (k : ℕ) ∈ [m]} S) p q
        rw [← hp] at this
        exact this
      have e : ({k : Fin N // (k : ℕ) ∈ [m]}) := ⟨⟨m, hm⟩, by simp⟩
      have k1 := key (Sum.inl ⟨⟨m, hm⟩, by simp⟩) (Sum.inl ⟨⟨m, hm⟩, by simp⟩)
      have k2 := key (Sum.inl ⟨⟨m, hm⟩, by simp⟩) (Sum.inr ⟨⟨m, hm⟩, by simp⟩)
      have k3 := key (Sum.inr ⟨⟨m, hm⟩, by simp⟩) (Sum.inl ⟨⟨m, hm⟩, by simp⟩)
      have k4 := key (Sum.inr ⟨⟨m, hm⟩, by simp⟩) (Sum.inr ⟨⟨m, hm⟩, by simp⟩)
      simp only [both, Sum.map_inl, Sum.map_inr, quad, Sum.elim_inl, Sum.elim_inr, copies, fromBlocks_apply₁₁, fromBlocks_apply₁₂,
        fromBlocks_apply₂₁, fromBlocks_apply₂₂, Matrix.smul_apply, one_apply_eq, smul_eq_mul, mul_one] at k1 k2 k3 k4
      exact ⟨k1, k2, k3, k4⟩
    · intro i hi j hj hij
      obtain ⟨p, rfl⟩ := exists_quad N i hi
      obtain ⟨q, rfl⟩ := exists_quad N j hj
      rw [mode] at hij
      have hk : ∀ a, both (Subtype.val : {k : Fin N // (k : ℕ) ∈ [m]} → Fin N) a ≠ p := by
        rintro (a | a) h <;> exact hij (by rw [← h]; exact a.2)
      have e1 := embed_apply_left _ (copies _ S) p q hk
      have e2 := embed_apply_right _ (copies _ S) q p hk
      rw [← hp, ← phase_eye] at e1 e2
      exact ⟨e1, e2⟩
  · obtain ⟨out, ho, hp⟩ := expand_multi M h1 S modes N hl hn hb
    have hw : Function.Injective fun a : Fin M => (⟨modes[(a : ℕ)]'(by omega), hb _ (List.getElem_mem _)⟩ : Fin N) := by
      intro a b h
      exact Fin.ext ((List.Nodup.getElem_inj_iff hn).mp (Fin.mk.inj h))
    refine ⟨out, ho, ?_, ?_⟩
    · intro a ha b hb'
      obtain ⟨ha', ea⟩ := hget a ha
      obtain ⟨hb'', eb⟩ := hget b hb'
      rw [ea, eb]
      have key := fun p q => embed_apply _ (both_injective _ hw) (phase M M S) p q
      simp only [← hp] at key
      exact ⟨key (Sum.inl ⟨a, ha⟩) (Sum.inl ⟨b, hb'⟩), key (Sum.inl ⟨a, ha⟩) (Sum.inr ⟨b, hb'⟩), key (Sum.inr ⟨a, ha⟩) (Sum.inl ⟨b, hb'⟩),
        key (Sum.inr ⟨a, ha⟩) (Sum.inr ⟨b, hb'⟩)⟩
    · intro i hi j hj hij
      obtain ⟨p, rfl⟩ := exists_quad N i hi
      obtain ⟨q, rfl⟩ := exists_quad N j hj
      rw [mode] at hij
      have hk : ∀ a, both (fun a : Fin M => (⟨modes[(a : ℕ)]'(by omega), hb _ (List.getElem_mem _)⟩ : Fin N)) a ≠ p := by
        rintro (a | a) h <;> exact hij (by rw [← h]; exact List.getElem_mem _)
      have e1 := embed_apply_left _ (phase M M S) p q hk
      have e2 := embed_apply_right _ (phase M M S) q p hk
      rw [← hp, ← phase_eye] at e1 e2
      exact ⟨e1, e2⟩

/-- C27: a single-mode matrix is applied to each listed mode (repetitions in the list do not matter). -/
theorem expand_single_entries {K : Type} [Field K] (S : ℕ → ℕ → K) (modes : List ℕ) (N : ℕ) (hb : ∀ m ∈ modes, m < N) :
    ∃ out, expand 2 S modes N = .ok out ∧
      (∀ m < N, ∀ m' < N, out m m' = (if m = m' then (if m ∈ modes then S 0 0 else 1) else 0) ∧
        out m (N + m') = (if m = m' ∧ m ∈ modes then S 0 1 else 0) ∧
        out (N + m) m' = (if m = m' ∧ m ∈ modes then S 1 0 else 0) ∧
        out (N + m) (N + m') = (if m = m' then (if m ∈ modes then S 1 1 else 1) else 0)) := by
  refine ⟨modes.foldl (expandOne S N) eye, ?_, ?_⟩
  · have hany : (modes.any fun x => decide (x ≥ N)) = false := by
      rw [List.any_eq_false]; intro x hx; have := hb x hx; simpa using this
    simp [expand, hany]
  · intro m hm m' hm'
    have hN : ∀ x, N + x ∉ modes := fun x h => by have := hb _ h; omega
    simp only [expandOne_fold S N modes hb, eye, hN, false_and, if_false, Nat.le_add_right, Nat.add_sub_cancel_left, true_and, not_le.mpr hm]
    refine ⟨?_, ?_, ?_, ?_⟩
    · by_cases h : m = m'
      · subst h
        have : m ≠ m + N := by omega
        by_cases h2 : m ∈ modes <;> simp [h2]
      · have h3 : ¬ m' = m + N := by omega
        simp [h, Ne.symm h, h3]
    · have h1 : ¬ N + m' = m := by omega
      have h2 : ¬ m = N + m' := by omega
      by_cases h : m = m'
      · subst h
        by_cases h2 : m ∈ modes <;> simp [h2, add_comm N] <;> omega
      · have h3 : ¬ N + m' = m + N := by omega
        simp [h, h1, h2, h3]
    · have h1 : ¬ m' = N + m := by omega
      have h2 : ¬ N + m = m' := by omega
      by_cases h : m = m'
      · subst h
        by_cases h2 : m ∈ modes <;> simp [h2, add_comm N] <;> omega
      · have h3 : ¬ N + m = m' + N := by omega
        simp [h, h1, h2, h3]
    · by_cases h : m = m'
      · subst h
        by_cases h2 : m ∈ modes <;> simp [h2] <;> intros <;> omega
      · have h3 : ¬ N + m = N + m' + N := by omega
        have h4 : ¬ N + m' = N + m := by omega
        simp [h, h3, Ne.symm h]

/-- C27: a mode out of range raises, and nothing is returned. -/
theorem expand_raises {K : Type} [Field K] (M : ℕ) (S : ℕ → ℕ → K) (modes : List ℕ) (N : ℕ) (h : ∃ m ∈ modes, N ≤ m) :
    ∃ e, expand (2 * M) S modes N = .error e := by
  have hany : (modes.any fun x => decide (x ≥ N)) = true := by
    rw [List.any_eq_true]; obtain ⟨m, hm, hN⟩ := h; exact ⟨m, hm, by simpa using hN⟩
  unfold expand
  simp only [hany, if_true]
  split_ifs <;> exact ⟨_, rfl⟩

/-- a two-mode squeezer on modes 3 and 1 of four -/
example : ∃ out, expand 4 (twoModeSqueezing 1 2) [3, 1] 4 = .ok out ∧ IsSymp 4 out :=
  expand_symplectic 2 _ [3, 1] 4 ⟨by simp, Or.inr ⟨by simp, rfl⟩⟩ (twoModeSqueezing_symplectic 1 2)

/-- C27: `expand_vector` displaces the amplitude of the given mode by `√(2ħ) α` and leaves the other modes alone; a mode out of range raises. -/
theorem expandVector_amp (alpha : ℂ) (mode N : ℕ) (hbar : ℝ) (hm : mode < N) :
    ∃ v, expandVector alpha mode N hbar = .ok v ∧ ∀ k < N, amp N v k = if k = mode then (Real.sqrt (2 * hbar) : ℂ) * alpha else 0 := by
  refine ⟨_, by rw [expandVector, if_neg (by omega)], ?_⟩
  intro k hk
  by_cases h : k = mode
  · subst h
    have h1 : k ≠ N + k := by omega
    have h2 : N ≠ 0 := by omega
    apply Complex.ext <;> simp [amp, Function.update_apply, h1, h2]
  · have h1 : k ≠ N + mode := by omega
    have h2 : N + k ≠ mode := by omega
    apply Complex.ext <;> simp [amp, Function.update_apply, h1, h, h2]

theorem expandVector_raises (alpha : ℂ) (mode N : ℕ) (hbar : ℝ) (hm : N ≤ mode) : expandVector alpha mode N hbar = .error .indexError := by
  rw [expandVector, if_pos hm]

/-- accepted calls of `expand_passive` -/
theorem expandPassive_embed {K : Type} [Field K] (M : ℕ) (T : ℕ → ℕ → K) (modes : List ℕ) (N : ℕ) (hl : modes.length = M) (hn : modes.Nodup)
    (hb : ∀ m ∈ modes, m < N) :
    ∃ out, expandPassive M M T modes N = .ok out ∧
      toMatrix N N out = embed (fun a : Fin M => (⟨modes[(a : ℕ)]'(by omega), hb _ (List.getElem_mem _)⟩ : Fin N)) (toMatrix M M T) := by
  have hany : (modes.any fun x => decide (x ≥ N)) = false := by
    rw [List.any_eq_false]; intro x hx; have := hb x hx; simpa using this
  refine ⟨scatter eye modes modes T, ?_, ?_⟩
  · simp [expandPassive, hl, hany]
  · have hw : Function.Injective fun a : Fin M => (⟨modes[(a : ℕ)]'(by omega), hb _ (List.getElem_mem _)⟩ : Fin N) := by
      intro a b h
      exact Fin.ext ((List.Nodup.getElem_inj_iff hn).mp (Fin.mk.inj h))
    have hnot : ∀ k : Fin N, (∀ a : Fin M, (⟨modes[(a : ℕ)]'(by omega), hb _ (List.getElem_mem _)⟩ : Fin N) ≠ k) → (k : ℕ) ∉ modes := by
      intro k hk hmem
      obtain ⟨a, ha, e⟩ := List.getElem_of_mem hmem
      exact hk ⟨a, by omega⟩ (Fin.ext e)
    apply embed_congr _ hw
    · intro i j
      simp only [toMatrix, of_apply, scatter_apply _ _ _ hn hn, List.getElem_mem, and_self, if_true]
      rw [hn.idxOf_getElem, hn.idxOf_getElem]
    · intro k l hk
      rw [← toMatrix_eye]
      simp [toMatrix, scatter_apply _ _ _ hn hn, hnot k hk]
    · intro k l hk
      rw [← toMatrix_eye]
      simp [toMatrix, scatter_apply _ _ _ hn hn, hnot l hk]

/-- C27: `expand_passive` puts `T` on the listed modes and the identity elsewhere. -/
theorem expandPassive_entries {K : Type} [Field K] (M : ℕ) (T : ℕ → ℕ → K) (modes : List ℕ) (N : ℕ) (hl : modes.length = M) (hn : modes.Nodup)
    (hb : ∀ m ∈ modes, m < N) :
    ∃ out, expandPassive M M T modes N = .ok out ∧
      (∀ a < M, ∀ b < M, out (modes.getD a 0) (modes.getD b 0) = T a b) ∧
      (∀ i < N, ∀ j < N, i ∉ modes → out i j = (if i = j then 1 else 0) ∧ out j i = if j = i then 1 else 0) := by
  obtain ⟨out, ho, hp⟩ := expandPassive_embed M T modes N hl hn hb
  have hw : Function.Injective fun a : Fin M => (⟨modes[(a : ℕ)]'(by omega), hb _ (List.getElem_mem _)⟩ : Fin N) := by
    intro a b h
    exact Fin.ext ((List.Nodup.getElem_inj_iff hn).mp (Fin.mk.inj h))
  refine ⟨out, ho, ?_, ?_⟩
  · intro a ha b hb'
    have := embed_apply _ hw (toMatrix M M T) ⟨a, ha⟩ ⟨b, hb'⟩
    rw [← hp] at this
    rw [List.getD_eq_getElem _ _ (by omega), List.getD_eq_getElem _ _ (by omega)]
    exact this
  · intro i hi j hj hij
    have hk : ∀ a : Fin M, (⟨modes[(a : ℕ)]'(by omega), hb _ (List.getElem_mem _)⟩ : Fin N) ≠ ⟨i, hi⟩ := by
      rintro a h; exact hij (by rw [← Fin.mk.inj h]; exact List.getElem_mem _)
    have e1 := embed_apply_left _ (toMatrix M M T) (⟨i, hi⟩ : Fin N) (⟨j, hj⟩ : Fin N) hk
    have e2 := embed_apply_right _ (toMatrix M M T) (⟨j, hj⟩ : Fin N) (⟨i, hi⟩ : Fin N) hk
    rw [← hp, ← toMatrix_eye] at e1 e2
    exact ⟨e1, e2⟩

/-- C27: `expand_passive` is multiplicative and keeps unitarity. -/
theorem expandPassive_mul {K : Type} [Field K] (M : ℕ) (S T : ℕ → ℕ → K) (modes : List ℕ) (N : ℕ) (hl : modes.length = M) (hn : modes.Nodup)
    (hb : ∀ m ∈ modes, m < N) :
    ∃ s t st, expandPassive M M S modes N = .ok s ∧ expandPassive M M T modes N = .ok t ∧ expandPassive M M (mmul M S T) modes N = .ok st ∧
      toMatrix N N st = toMatrix N N s * toMatrix N N t := by
  obtain ⟨s, hs, ps⟩ := expandPassive_embed M S modes N hl hn hb
  obtain ⟨t, ht, pt⟩ := expandPassive_embed M T modes N hl hn hb
  obtain ⟨st, hst, pst⟩ := expandPassive_embed M (mmul M S T) modes N hl hn hb
  have hw : Function.Injective fun a : Fin M => (⟨modes[(a : ℕ)]'(by omega), hb _ (List.getElem_mem _)⟩ : Fin N) := by
    intro a b h
    exact Fin.ext ((List.Nodup.getElem_inj_iff hn).mp (Fin.mk.inj h))
  refine ⟨s, t, st, hs, ht, hst, ?_⟩
  rw [ps, pt, pst, ← embed_mul _ hw]
  congr 1
  ext i j
  simp [toMatrix, mmul, dot_sum, mul_apply, Finset.sum_range]

/-- C27: `expand_passive` raises on a non-square array, on a list of the wrong length and on a mode out of range. -/
theorem expandPassive_raises {K : Type} [Field K] (r c : ℕ) (T : ℕ → ℕ → K) (modes : List ℕ) (N : ℕ)
    (h : r ≠ c ∨ modes.length ≠ r ∨ ∃ m ∈ modes, N ≤ m) : ∃ e, expandPassive r c T modes N = .error e := by
  unfold expandPassive
  split_ifs with h1 h2 h3
  · exact ⟨_, rfl⟩
  · exact ⟨_, rfl⟩
  · exact ⟨_, rfl⟩
  · exfalso
    rcases h with h | h | ⟨m, hm, hN⟩
    · exact h1 h
    · exact h2 h
    · exact h3 (List.any_eq_true.mpr ⟨m, hm, by simpa using hN⟩)

end Verif.Props
