/-
C49: the Fock representations of the two-mode gates of thewalrus/fock_gradients.py and their gradients.
-/
import Verif.Props.FockGates

set_option linter.unusedSimpArgs false
set_option linter.unusedSectionVars false

namespace Verif.Props
open Verif Verif.Model Verif.Model.FG Verif.Spec Verif.Lemmas

/-! ### interferometers on two modes -/

/-- the matrix of an interferometer -/
def intR (U : Matrix (Fin 2) (Fin 2) ℂ) : Matrix (Fin 4) (Fin 4) ℂ :=
  !![0, 0, U 0 0, U 0 1; 0, 0, U 1 0, U 1 1; U 0 0, U 1 0, 0, 0; U 0 1, U 1 1, 0, 0]

theorem intR_symm (U : Matrix (Fin 2) (Fin 2) ℂ) : (intR U).IsSymm := by
  ext i j; fin_cases i <;> fin_cases j <;> rfl

/-- the amplitudes of an interferometer -/
noncomputable def intA (U : Matrix (Fin 2) (Fin 2) ℂ) (m n p q : ℕ) : ℂ := fockAmp 1 (intR U) 0 ![m, n, p, q]

theorem intA_m (U : Matrix (Fin 2) (Fin 2) ℂ) (m n p q : ℕ) : root (m + 1) * intA U (m + 1) n p q =
    U 0 0 * (root p * intA U m n (p - 1) q) + U 0 1 * (root q * intA U m n p (q - 1)) := by
  have := fockAmp4_m 1 (intR U) (intR_symm U) m n p q
  unfold row4 at this
  rw [show intR U 0 0 = 0 from rfl, show intR U 0 1 = 0 from rfl, show intR U 0 2 = U 0 0 from rfl, show intR U 0 3 = U 0 1 from rfl] at this
  unfold intA; linear_combination this

theorem intA_n (U : Matrix (Fin 2) (Fin 2) ℂ) (m n p q : ℕ) : root (n + 1) * intA U m (n + 1) p q =
    U 1 0 * (root p * intA U m n (p - 1) q) + U 1 1 * (root q * intA U m n p (q - 1)) := by
  have := fockAmp4_n 1 (intR U) (intR_symm U) m n p q
  unfold row4 at this
  rw [show intR U 1 0 = 0 from rfl, show intR U 1 1 = 0 from rfl, show intR U 1 2 = U 1 0 from rfl, show intR U 1 3 = U 1 1 from rfl] at this
  unfold intA; linear_combination this

theorem intA_p (U : Matrix (Fin 2) (Fin 2) ℂ) (m n p q : ℕ) : root (p + 1) * intA U m n (p + 1) q =
    U 0 0 * (root m * intA U (m - 1) n p q) + U 1 0 * (root n * intA U m (n - 1) p q) := by
  have := fockAmp4_p 1 (intR U) (intR_symm U) m n p q
  unfold row4 at this
  rw [show intR U 2 0 = U 0 0 from rfl, show intR U 2 1 = U 1 0 from rfl, show intR U 2 2 = 0 from rfl, show intR U 2 3 = 0 from rfl] at this
  unfold intA; linear_combination this

theorem intA_q (U : Matrix (Fin 2) (Fin 2) ℂ) (m n p q : ℕ) : root (q + 1) * intA U m n p (q + 1) =
    U 0 1 * (root m * intA U (m - 1) n p q) + U 1 1 * (root n * intA U m (n - 1) p q) := by
  have := fockAmp4_q 1 (intR U) (intR_symm U) m n p q
  unfold row4 at this
  rw [show intR U 3 0 = U 0 1 from rfl, show intR U 3 1 = U 1 1 from rfl, show intR U 3 2 = 0 from rfl, show intR U 3 3 = 0 from rfl] at this
  unfold intA; linear_combination this

/-- **C49.** An interferometer conserves the number of photons. -/
theorem intA_selection (U : Matrix (Fin 2) (Fin 2) ℂ) (m n p q : ℕ) (h : m + n ≠ p + q) : intA U m n p q = 0 := by
  refine fockAmp_selection (W := ℤ) _ _ (intR_symm U) 0 ![1, 1, -1, -1] (fun i j hij => ?_) (fun i hi => absurd rfl hi) ![m, n, p, q] ?_
  · fin_cases i <;> fin_cases j <;> first | rfl | exact absurd rfl hij
  · rw [Fin.sum_univ_four]
    simp
    omega

theorem interferometerLoops_amp (U : Matrix (Fin 2) (Fin 2) ℂ) (c m n p q : ℕ) (hm : m < c) (hn : n < c) (hp : p < c) (hq : q < c) :
    interferometerLoops (U 0 0) (U 0 1) (U 1 0) (U 1 1) c m n p q = intA U m n p q := by
  unfold interferometerLoops
  have h3 := fill3 c (fun m => c - m) (fun m _ => Nat.sub_le _ _) (fun m n => m + n)
    (fun m n Z => U 0 0 * sqA m / sqA (m + n) * Z (ix c ((m : ℤ) - 1)) n (m + n - 1) 0 + U 1 0 * sqA n / sqA (m + n) * Z m (ix c ((n : ℤ) - 1)) (m + n - 1) 0)
    (upd4 (fun _ _ _ _ => 0) 0 0 0 0 1) (intA U)
    (fun m hm n hn p hp h => by
      unfold upd4
      split_ifs with e
      · obtain ⟨rfl, rfl, rfl, _⟩ := e
        unfold intA; rw [fockAmp4_zero]
      · rw [intA_selection U m n p 0 (by omega)])
    (fun m n p x hx => by unfold upd4; rw [if_neg (by omega)])
    (fun m hm n hn hp hp0 B hB => by
      have := intA_p U m n (m + n - 1) 0
      rw [show m + n - 1 + 1 = m + n by omega] at this
      have hne := root_ne hp0
      have e1 : sqA m * B (ix c ((m : ℤ) - 1)) n (m + n - 1) 0 = root m * intA U (m - 1) n (m + n - 1) 0 := by
        rcases Nat.eq_zero_or_pos m with rfl | hm0
        · rw [sqA_eq]; simp
        · rw [ix_pred hm0, hB (m - 1) (by omega) n (by omega) (m + n - 1) (by omega) (by omega), sqA_eq]
      have e2 : sqA n * B m (ix c ((n : ℤ) - 1)) (m + n - 1) 0 = root n * intA U m (n - 1) (m + n - 1) 0 := by
        rcases Nat.eq_zero_or_pos n with rfl | hm0
        · rw [sqA_eq]; simp
        · rw [ix_pred hm0, hB m (by omega) (n - 1) (by omega) (m + n - 1) (by omega) (by omega), sqA_eq]
      rw [sqA_eq (m + n)]
      field_simp
      linear_combination U 0 0 * e1 + U 1 0 * e2 - this)
  refine fill4 c (fun m n p => (m : ℤ) + n - p) (fun m n p Z => U 0 1 * sqA m / sqA ((m : ℤ) + n - p).toNat * Z (ix c ((m : ℤ) - 1)) n p (((m : ℤ) + n - p).toNat - 1)
    + U 1 1 * sqA n / sqA ((m : ℤ) + n - p).toNat * Z m (ix c ((n : ℤ) - 1)) p (((m : ℤ) + n - p).toNat - 1)) _ (intA U) ?_ ?_ m hm n hn p hp q hq
  · intro m hm n hn p hp x hx h
    by_cases h0 : x = 0
    · subst h0; exact h3.1 m hm n hn p hp
    · rw [intA_selection U m n p x (by omega)]
      exact h3.2 m n p x h0
  · intro m hm n hn p hp x hx hx0 hq B hB
    have := intA_q U m n p (x - 1)
    rw [show x - 1 + 1 = x by omega] at this
    have hne := root_ne hx0
    have e1 : sqA m * B (ix c ((m : ℤ) - 1)) n p (x - 1) = root m * intA U (m - 1) n p (x - 1) := by
      rcases Nat.eq_zero_or_pos m with rfl | hm0
      · rw [sqA_eq]; simp
      · rw [ix_pred hm0, hB (m - 1) (by omega) n hn p hp (x - 1) (by omega) (.inr (.inr (by unfold Before; omega))), sqA_eq]
    have e2 : sqA n * B m (ix c ((n : ℤ) - 1)) p (x - 1) = root n * intA U m (n - 1) p (x - 1) := by
      rcases Nat.eq_zero_or_pos n with rfl | hm0
      · rw [sqA_eq]; simp
      · rw [ix_pred hm0, hB m hm (n - 1) (by omega) p hp (x - 1) (by omega) (.inr (.inr (by unfold Before; omega))), sqA_eq]
    have ex : ((m : ℤ) + n - p).toNat = x := by rw [hq]; rfl
    rw [ex, sqA_eq x]
    field_simp
    linear_combination U 0 1 * e1 + U 1 1 * e2 - this

theorem intA_unique (U : Matrix (Fin 2) (Fin 2) ℂ) (Z : ℕ → ℕ → ℕ → ℕ → ℂ) (hZ : IsInterferometer2 U Z) (m n p q : ℕ) : Z m n p q = intA U m n p q := by
  refine fockAmp_unique 1 (intR U) (intR_symm U) 0 (fun k => Z (k 0) (k 1) (k 2) (k 3)) hZ.vac ?_ ![m, n, p, q]
  intro k i
  rw [Fin.sum_univ_four]
  fin_cases i
  · have := hZ.ann1 (k 0) (k 1) (k 2) (k 3)
    simp [s4_0, s4_1, s4_2, s4_3, intR]
    linear_combination this
  · have := hZ.ann2 (k 0) (k 1) (k 2) (k 3)
    simp [s4_0, s4_1, s4_2, s4_3, intR]
    linear_combination this
  · have := hZ.cre1 (k 0) (k 1) (k 2) (k 3)
    simp [s4_0, s4_1, s4_2, s4_3, intR]
    linear_combination this
  · have := hZ.cre2 (k 0) (k 1) (k 2) (k 3)
    simp [s4_0, s4_1, s4_2, s4_3, intR]
    linear_combination this

theorem interferometer2_exists (U : Matrix (Fin 2) (Fin 2) ℂ) : IsInterferometer2 U (intA U) where
  vac := fockAmp4_zero _ _ _
  ann1 := intA_m U
  ann2 := intA_n U
  cre1 := intA_p U
  cre2 := intA_q U

theorem beamsplitter_amp (theta phi : ℝ) (c m n p q : ℕ) (hm : m < c) (hn : n < c) (hp : p < c) (hq : q < c) :
    beamsplitter theta phi c m n p q = intA (beamsplitterU theta phi) m n p q := by
  rw [← interferometerLoops_amp _ c m n p q hm hn hp hq]
  unfold beamsplitter beamsplitterU
  simp only [Matrix.of_apply, Matrix.cons_val', Matrix.cons_val_zero, Matrix.cons_val_one, Matrix.cons_val_fin_one]
  rw [map_mul, ei_conj, Complex.conj_ofReal, ei_neg', mul_comm (Real.sin theta : ℂ) (ei phi), mul_comm (Real.sin theta : ℂ)]
  rfl

/-- **C49.** `beamsplitter(theta, phi, cutoff)` is the corner of the beamsplitter, for every cutoff. -/
theorem beamsplitter_correct (theta phi : ℝ) (Z : ℕ → ℕ → ℕ → ℕ → ℂ) (hZ : IsInterferometer2 (beamsplitterU theta phi) Z) (c m n p q : ℕ)
    (hm : m < c) (hn : n < c) (hp : p < c) (hq : q < c) : beamsplitter theta phi c m n p q = Z m n p q := by
  rw [beamsplitter_amp theta phi c m n p q hm hn hp hq, intA_unique _ Z hZ]

theorem mzgateU_eq (theta phi : ℝ) : mzgateU theta phi =
    !![0.5 * (ei phi * (ei theta - 1)), 0.5 * (Complex.I * (1 + ei theta)); 0.5 * (Complex.I * ei phi * (1 + ei theta)), 0.5 * (1 - ei theta)] := by
  have h2 : ((1 / Real.sqrt 2 : ℝ) : ℂ) * ((1 / Real.sqrt 2 : ℝ) : ℂ) = 1 / 2 := by
    rw [← Complex.ofReal_mul]
    have : (1 / Real.sqrt 2) * (1 / Real.sqrt 2) = 1 / 2 := by
      rw [div_mul_div_comm, Real.mul_self_sqrt (by norm_num)]; norm_num
    rw [this]; norm_num
  have hI := Complex.I_mul_I
  unfold mzgateU
  set w := ((1 / Real.sqrt 2 : ℝ) : ℂ)
  ext i j
  fin_cases i <;> fin_cases j <;> simp [Matrix.mul_apply, Fin.sum_univ_two] <;> unfold ei
  · linear_combination (Complex.exp (Complex.I * theta) - 1) * Complex.exp (Complex.I * phi) * h2 + w * w * Complex.exp (Complex.I * phi) * hI
  · linear_combination (Complex.exp (Complex.I * theta) + 1) * Complex.I * h2
  · linear_combination (Complex.exp (Complex.I * theta) + 1) * Complex.I * Complex.exp (Complex.I * phi) * h2
  · linear_combination (1 - Complex.exp (Complex.I * theta)) * h2 + w * w * Complex.exp (Complex.I * theta) * hI

theorem mzgate_amp (theta phi : ℝ) (c m n p q : ℕ) (hm : m < c) (hn : n < c) (hp : p < c) (hq : q < c) :
    mzgate theta phi c m n p q = intA (mzgateU theta phi) m n p q := by
  rw [← interferometerLoops_amp _ c m n p q hm hn hp hq, mzgateU_eq]
  rfl

/-- **C49.** `mzgate(theta, phi, cutoff)` is the corner of the Mach-Zehnder interferometer, for every cutoff. -/
theorem mzgate_correct (theta phi : ℝ) (Z : ℕ → ℕ → ℕ → ℕ → ℂ) (hZ : IsInterferometer2 (mzgateU theta phi) Z) (c m n p q : ℕ)
    (hm : m < c) (hn : n < c) (hp : p < c) (hq : q < c) : mzgate theta phi c m n p q = Z m n p q := by
  rw [mzgate_amp theta phi c m n p q hm hn hp hq, intA_unique _ Z hZ]

/-- derivative of the amplitudes of an interferometer -/
theorem intA_deriv (U : ℝ → Matrix (Fin 2) (Fin 2) ℂ) (U' : Matrix (Fin 2) (Fin 2) ℂ) (t : ℝ) (h : ∀ i j, HasDerivAt (fun s => U s i j) (U' i j) t) (m n p q : ℕ) :
    HasDerivAt (fun s => intA (U s) m n p q)
      (U' 0 0 * (root m * (root p * intA (U t) (m - 1) n (p - 1) q)) + U' 0 1 * (root m * (root q * intA (U t) (m - 1) n p (q - 1))) +
        U' 1 0 * (root n * (root p * intA (U t) m (n - 1) (p - 1) q)) + U' 1 1 * (root n * (root q * intA (U t) m (n - 1) p (q - 1)))) t := by
  refine (fockAmp4_deriv (fun _ => 1) (fun s => intR (U s)) (fun s => intR_symm (U s)) 0 0 (intR U') (intR_symm U') t (hasDerivAt_const _ _) (by simp) ?_ ?_ m n p q).congr_deriv ?_
  · intro i j
    fin_cases i <;> fin_cases j <;> first | exact hasDerivAt_const _ _ | exact h _ _
  · intro i; fin_cases i <;> rfl
  · rw [show intR U' 0 1 = 0 from rfl, show intR U' 0 2 = U' 0 0 from rfl, show intR U' 0 3 = U' 0 1 from rfl, show intR U' 1 2 = U' 1 0 from rfl,
      show intR U' 1 3 = U' 1 1 from rfl, show intR U' 2 3 = 0 from rfl]
    unfold intA
    ring

/-- the entries of the gradient arrays of the interferometers -/
theorem gradLoops_entry (c : ℕ) (F3 : ℕ → ℕ → ℕ → ℂ) (F4 : Arr4) (m n p q : ℕ) (hm : m < c) (hn : n < c) (hp : p < c) (hq : q < c) :
    (forRange c (forRange c (fun _ _ _ _ => 0 : Arr4) fun m A => forRange (c - m) A fun n A =>
        if 0 < m + n ∧ m + n < c then upd4 A m n (m + n) 0 (F3 m n (m + n)) else A) fun m A => forRange c A fun n A => forRange c A fun p A =>
      if 0 < (m : ℤ) + n - p ∧ (m : ℤ) + n - p < c then upd4 A m n p ((m : ℤ) + n - p).toNat (F4 m n p ((m : ℤ) + n - p).toNat) else A) m n p q =
    if m + n = p + q then (if q = 0 then (if p = 0 then 0 else F3 m n p) else F4 m n p q) else 0 := by
  have h3 := fill3 c (fun m => c - m) (fun m _ => Nat.sub_le _ _) (fun m n => m + n) (fun m n _ => F3 m n (m + n)) (fun _ _ _ _ => 0)
    (fun m n p q => if m + n = p + q then (if q = 0 then (if p = 0 then 0 else F3 m n p) else F4 m n p q) else 0)
    (fun m hm n hn p hp h => by
      split_ifs with h1 h2 h3
      · rfl
      · exfalso; omega
      · exfalso; omega
      · rfl)
    (fun m n p x hx => rfl)
    (fun m hm n hn hp hp0 B hB => by
      rw [if_pos (by omega), if_pos rfl, if_neg (by omega)])
  refine fill4 c (fun m n p => (m : ℤ) + n - p) (fun m n p _ => F4 m n p ((m : ℤ) + n - p).toNat) _
    (fun m n p q => if m + n = p + q then (if q = 0 then (if p = 0 then 0 else F3 m n p) else F4 m n p q) else 0) ?_ ?_ m hm n hn p hp q hq
  · intro m hm n hn p hp x hx h
    by_cases h0 : x = 0
    · subst h0; exact h3.1 m hm n hn p hp
    · rw [if_neg (by omega)]
      exact h3.2 m n p x h0
  · intro m hm n hn p hp x hx hx0 hq B hB
    have ex : ((m : ℤ) + n - p).toNat = x := by rw [hq]; rfl
    rw [ex, if_pos (by omega), if_neg (by omega)]

theorem gradLoops_correct (U : ℝ → Matrix (Fin 2) (Fin 2) ℂ) (U' : Matrix (Fin 2) (Fin 2) ℂ) (t : ℝ) (h : ∀ i j, HasDerivAt (fun s => U s i j) (U' i j) t)
    (m n p q : ℕ) (x3 x4 : ℂ)
    (h3 : 0 < p → x3 = U' 0 0 * (root m * (root p * intA (U t) (m - 1) n (p - 1) 0)) + U' 1 0 * (root n * (root p * intA (U t) m (n - 1) (p - 1) 0)))
    (h4 : 0 < q → x4 = U' 0 0 * (root m * (root p * intA (U t) (m - 1) n (p - 1) q)) + U' 0 1 * (root m * (root q * intA (U t) (m - 1) n p (q - 1))) +
        U' 1 0 * (root n * (root p * intA (U t) m (n - 1) (p - 1) q)) + U' 1 1 * (root n * (root q * intA (U t) m (n - 1) p (q - 1)))) :
    HasDerivAt (fun s => intA (U s) m n p q) (if m + n = p + q then (if q = 0 then (if p = 0 then 0 else x3) else x4) else 0) t := by
  have hd := intA_deriv U U' t h m n p q
  split_ifs with e1 e2 e3
  · subst e2 e3
    refine hd.congr_deriv ?_
    simp
  · subst e2
    refine hd.congr_deriv ?_
    rw [h3 (by omega)]
    simp
  · refine hd.congr_deriv ?_
    rw [h4 (by omega)]
  · simp only [intA_selection _ m n p q e1]
    exact hasDerivAt_const _ _

/-- entries one step down in two of the indices -/
theorem root_prev_prev {c a b : ℕ} (A B : ℕ → ℕ → ℂ) (h : ∀ i < c, ∀ j < c, A i j = B i j) (ha : a < c) (hb : b < c) :
    sqA a * (sqA b * A (ix c ((a : ℤ) - 1)) (ix c ((b : ℤ) - 1))) = root a * (root b * B (a - 1) (b - 1)) :=
  root_prev (fun i => sqA b * A i (ix c ((b : ℤ) - 1))) (fun i => root b * B i (b - 1)) (fun i hi => root_prev (A i) (B i) (fun j hj => h i hi j hj) hb) ha

theorem root_prev_pos {c a b : ℕ} (A B : ℕ → ℕ → ℂ) (h : ∀ i < c, ∀ j < c, A i j = B i j) (ha : a < c) (hb : b < c) (hb0 : 0 < b) :
    sqA a * (sqA b * A (ix c ((a : ℤ) - 1)) (b - 1)) = root a * (root b * B (a - 1) (b - 1)) := by
  rw [← root_prev_prev A B h ha hb, ix_pred hb0]

/-- the loops on pairs of arrays -/
theorem gradLoops_pair (c : ℕ) (F3 G3 : ℕ → ℕ → ℕ → ℂ) (F4 G4 : Arr4) (m n p q : ℕ) (hm : m < c) (hn : n < c) (hp : p < c) (hq : q < c) (g : Arr4 × Arr4)
    (hg : g = forRange c (forRange c ((fun _ _ _ _ => 0 : Arr4), (fun _ _ _ _ => 0 : Arr4)) fun m g => forRange (c - m) g fun n g =>
        if 0 < m + n ∧ m + n < c then (upd4 g.1 m n (m + n) 0 (F3 m n (m + n)), upd4 g.2 m n (m + n) 0 (G3 m n (m + n))) else g)
        fun m g => forRange c g fun n g => forRange c g fun p g =>
      if 0 < (m : ℤ) + n - p ∧ (m : ℤ) + n - p < c then
        (upd4 g.1 m n p ((m : ℤ) + n - p).toNat (F4 m n p ((m : ℤ) + n - p).toNat), upd4 g.2 m n p ((m : ℤ) + n - p).toNat (G4 m n p ((m : ℤ) + n - p).toNat)) else g) :
    g.1 m n p q = (if m + n = p + q then (if q = 0 then (if p = 0 then 0 else F3 m n p) else F4 m n p q) else 0) ∧
    g.2 m n p q = (if m + n = p + q then (if q = 0 then (if p = 0 then 0 else G3 m n p) else G4 m n p q) else 0) := by
  rw [← gradLoops_entry c F3 F4 m n p q hm hn hp hq, ← gradLoops_entry c G3 G4 m n p q hm hn hp hq, hg]
  constructor
  · rw [forRange_map Prod.fst c _ _ (fun m A => forRange c A fun n A => forRange c A fun p A =>
      if 0 < (m : ℤ) + n - p ∧ (m : ℤ) + n - p < c then upd4 A m n p ((m : ℤ) + n - p).toNat (F4 m n p ((m : ℤ) + n - p).toNat) else A)
      (fun m s => forRange_map Prod.fst c _ _ (fun n A => forRange c A fun p A =>
        if 0 < (m : ℤ) + n - p ∧ (m : ℤ) + n - p < c then upd4 A m n p ((m : ℤ) + n - p).toNat (F4 m n p ((m : ℤ) + n - p).toNat) else A)
        fun n s => forRange_map Prod.fst c _ _ _ fun p s => by split_ifs <;> rfl)]
    rw [forRange_map Prod.fst c _ _ (fun m A => forRange (c - m) A fun n A => if 0 < m + n ∧ m + n < c then upd4 A m n (m + n) 0 (F3 m n (m + n)) else A)
      (fun m s => forRange_map Prod.fst (c - m) _ _ _ fun n s => by split_ifs <;> rfl)]
  · rw [forRange_map Prod.snd c _ _ (fun m A => forRange c A fun n A => forRange c A fun p A =>
      if 0 < (m : ℤ) + n - p ∧ (m : ℤ) + n - p < c then upd4 A m n p ((m : ℤ) + n - p).toNat (G4 m n p ((m : ℤ) + n - p).toNat) else A)
      (fun m s => forRange_map Prod.snd c _ _ (fun n A => forRange c A fun p A =>
        if 0 < (m : ℤ) + n - p ∧ (m : ℤ) + n - p < c then upd4 A m n p ((m : ℤ) + n - p).toNat (G4 m n p ((m : ℤ) + n - p).toNat) else A)
        fun n s => forRange_map Prod.snd c _ _ _ fun p s => by split_ifs <;> rfl)]
    rw [forRange_map Prod.snd c _ _ (fun m A => forRange (c - m) A fun n A => if 0 < m + n ∧ m + n < c then upd4 A m n (m + n) 0 (G3 m n (m + n)) else A)
      (fun m s => forRange_map Prod.snd (c - m) _ _ _ fun n s => by split_ifs <;> rfl)]

theorem hasDerivAt_cos_c (t : ℝ) : HasDerivAt (fun s : ℝ => (Real.cos s : ℂ)) (-(Real.sin t : ℂ)) t :=
  (Real.hasDerivAt_cos t).ofReal_comp.congr_deriv (by push_cast; rfl)

theorem hasDerivAt_sin_c (t : ℝ) : HasDerivAt (fun s : ℝ => (Real.sin s : ℂ)) (Real.cos t : ℂ) t := (Real.hasDerivAt_sin t).ofReal_comp

theorem beamsplitterU_eq (theta phi : ℝ) : beamsplitterU theta phi =
    !![(Real.cos theta : ℂ), -(ei (-phi) * (Real.sin theta : ℂ)); ei phi * (Real.sin theta : ℂ), (Real.cos theta : ℂ)] := by
  unfold beamsplitterU; rw [ei_neg']; rfl

/-- **C49.** `grad_beamsplitter` returns the derivatives of the entries in `theta` and in `phi`. -/
theorem gradBeamsplitter_correct (theta phi : ℝ) (c m n p q : ℕ) (hm : m < c) (hn : n < c) (hp : p < c) (hq : q < c) :
    HasDerivAt (fun s => beamsplitter s phi c m n p q) ((gradBeamsplitter c (beamsplitter theta phi c) theta phi).1 m n p q) theta ∧
    HasDerivAt (fun s => beamsplitter theta s c m n p q) ((gradBeamsplitter c (beamsplitter theta phi c) theta phi).2 m n p q) phi := by
  set T := beamsplitter theta phi c with hT
  have hA : ∀ i < c, ∀ j < c, ∀ k < c, ∀ l < c, T i j k l = intA (beamsplitterU theta phi) i j k l :=
    fun i hi j hj k hk l hl => beamsplitter_amp theta phi c i j k l hi hj hk hl
  obtain ⟨e1, e2⟩ := gradLoops_pair c
    (fun m n p => -sqA m * sqA p * (Real.sin theta : ℂ) * T (ix c ((m : ℤ) - 1)) n (p - 1) 0 + sqA n * sqA p * ei phi * (Real.cos theta : ℂ) * T m (ix c ((n : ℤ) - 1)) (p - 1) 0)
    (fun m n p => Complex.I * sqA n * sqA p * ei phi * (Real.sin theta : ℂ) * T m (ix c ((n : ℤ) - 1)) (p - 1) 0)
    (fun m n p q => -sqA m * sqA p * (Real.sin theta : ℂ) * T (ix c ((m : ℤ) - 1)) n (ix c ((p : ℤ) - 1)) q
          - sqA n * sqA q * (Real.sin theta : ℂ) * T m (ix c ((n : ℤ) - 1)) p (q - 1)
          + sqA n * sqA p * ei phi * (Real.cos theta : ℂ) * T m (ix c ((n : ℤ) - 1)) (ix c ((p : ℤ) - 1)) q
          - sqA m * sqA q * ei (-phi) * (Real.cos theta : ℂ) * T (ix c ((m : ℤ) - 1)) n p (q - 1))
    (fun m n p q => Complex.I * sqA n * sqA p * ei phi * (Real.sin theta : ℂ) * T m (ix c ((n : ℤ) - 1)) (ix c ((p : ℤ) - 1)) q
            + Complex.I * sqA m * sqA q * ei (-phi) * (Real.sin theta : ℂ) * T (ix c ((m : ℤ) - 1)) n p (q - 1))
    m n p q hm hn hp hq (gradBeamsplitter c T theta phi) rfl
  rw [e1, e2]
  simp only [hT, beamsplitter_amp _ _ c m n p q hm hn hp hq]
  simp only [← hT]
  have d1 : 0 < p → sqA m * (sqA p * T (ix c ((m : ℤ) - 1)) n (p - 1) 0) = root m * (root p * intA (beamsplitterU theta phi) (m - 1) n (p - 1) 0) :=
    root_prev_pos (fun i j => T i n j 0) (fun i j => intA (beamsplitterU theta phi) i n j 0) (fun i hi j hj => hA i hi n hn j hj 0 (by omega)) hm hp
  have d2 : 0 < p → sqA n * (sqA p * T m (ix c ((n : ℤ) - 1)) (p - 1) 0) = root n * (root p * intA (beamsplitterU theta phi) m (n - 1) (p - 1) 0) :=
    root_prev_pos (fun i j => T m i j 0) (fun i j => intA (beamsplitterU theta phi) m i j 0) (fun i hi j hj => hA m hm i hi j hj 0 (by omega)) hn hp
  have f1 : sqA m * (sqA p * T (ix c ((m : ℤ) - 1)) n (ix c ((p : ℤ) - 1)) q) = root m * (root p * intA (beamsplitterU theta phi) (m - 1) n (p - 1) q) :=
    root_prev_prev (fun i j => T i n j q) (fun i j => intA (beamsplitterU theta phi) i n j q) (fun i hi j hj => hA i hi n hn j hj q hq) hm hp
  have f2 : sqA n * (sqA p * T m (ix c ((n : ℤ) - 1)) (ix c ((p : ℤ) - 1)) q) = root n * (root p * intA (beamsplitterU theta phi) m (n - 1) (p - 1) q) :=
    root_prev_prev (fun i j => T m i j q) (fun i j => intA (beamsplitterU theta phi) m i j q) (fun i hi j hj => hA m hm i hi j hj q hq) hn hp
  have f3 : 0 < q → sqA m * (sqA q * T (ix c ((m : ℤ) - 1)) n p (q - 1)) = root m * (root q * intA (beamsplitterU theta phi) (m - 1) n p (q - 1)) :=
    root_prev_pos (fun i j => T i n p j) (fun i j => intA (beamsplitterU theta phi) i n p j) (fun i hi j hj => hA i hi n hn p hp j hj) hm hq
  have f4 : 0 < q → sqA n * (sqA q * T m (ix c ((n : ℤ) - 1)) p (q - 1)) = root n * (root q * intA (beamsplitterU theta phi) m (n - 1) p (q - 1)) :=
    root_prev_pos (fun i j => T m i p j) (fun i j => intA (beamsplitterU theta phi) m i p j) (fun i hi j hj => hA m hm i hi p hp j hj) hn hq
  constructor
  · refine gradLoops_correct (fun s => beamsplitterU s phi) !![-(Real.sin theta : ℂ), -(ei (-phi) * (Real.cos theta : ℂ)); ei phi * (Real.cos theta : ℂ), -(Real.sin theta : ℂ)] theta
      (fun i j => ?_) m n p q _ _ (fun h => ?_) (fun h => ?_)
    · simp only [beamsplitterU_eq]
      fin_cases i <;> fin_cases j
      · exact hasDerivAt_cos_c theta
      · exact ((hasDerivAt_sin_c theta).const_mul _).fun_neg
      · exact (hasDerivAt_sin_c theta).const_mul _
      · exact hasDerivAt_cos_c theta
    · simp only [Matrix.of_apply, Matrix.cons_val', Matrix.cons_val_zero, Matrix.cons_val_one, Matrix.cons_val_fin_one]
      linear_combination -(Real.sin theta : ℂ) * d1 h + ei phi * (Real.cos theta : ℂ) * d2 h
    · simp only [Matrix.of_apply, Matrix.cons_val', Matrix.cons_val_zero, Matrix.cons_val_one, Matrix.cons_val_fin_one]
      linear_combination -(Real.sin theta : ℂ) * f1 + ei phi * (Real.cos theta : ℂ) * f2 - ei (-phi) * (Real.cos theta : ℂ) * f3 h - (Real.sin theta : ℂ) * f4 h
  · refine gradLoops_correct (fun s => beamsplitterU theta s) !![0, Complex.I * ei (-phi) * (Real.sin theta : ℂ); Complex.I * ei phi * (Real.sin theta : ℂ), 0] phi
      (fun i j => ?_) m n p q _ _ (fun h => ?_) (fun h => ?_)
    · simp only [beamsplitterU_eq]
      fin_cases i <;> fin_cases j
      · exact hasDerivAt_const _ _
      · refine ((hasDerivAt_ei_neg phi).mul_const _).fun_neg.congr_deriv ?_
        simp
      · exact (hasDerivAt_ei phi).mul_const _
      · exact hasDerivAt_const _ _
    · simp only [Matrix.of_apply, Matrix.cons_val', Matrix.cons_val_zero, Matrix.cons_val_one, Matrix.cons_val_fin_one]
      linear_combination Complex.I * ei phi * (Real.sin theta : ℂ) * d2 h
    · simp only [Matrix.of_apply, Matrix.cons_val', Matrix.cons_val_zero, Matrix.cons_val_one, Matrix.cons_val_fin_one]
      linear_combination Complex.I * ei phi * (Real.sin theta : ℂ) * f2 + Complex.I * ei (-phi) * (Real.sin theta : ℂ) * f3 h

/-- **C49.** `grad_mzgate` returns the derivatives of the entries in `theta` and in `phi`. -/
theorem gradMzgate_correct (theta phi : ℝ) (c m n p q : ℕ) (hm : m < c) (hn : n < c) (hp : p < c) (hq : q < c) :
    HasDerivAt (fun s => mzgate s phi c m n p q) ((gradMzgate c (mzgate theta phi c) theta phi).1 m n p q) theta ∧
    HasDerivAt (fun s => mzgate theta s c m n p q) ((gradMzgate c (mzgate theta phi c) theta phi).2 m n p q) phi := by
  set T := mzgate theta phi c with hT
  have hA : ∀ i < c, ∀ j < c, ∀ k < c, ∀ l < c, T i j k l = intA (mzgateU theta phi) i j k l :=
    fun i hi j hj k hk l hl => mzgate_amp theta phi c i j k l hi hj hk hl
  obtain ⟨e1, e2⟩ := gradLoops_pair c
    (fun m n p => Complex.I * 0.5 * ei phi * ei theta * sqA m * sqA p * T (ix c ((m : ℤ) - 1)) n (p - 1) 0
          - 0.5 * ei phi * ei theta * sqA n * sqA p * T m (ix c ((n : ℤ) - 1)) (p - 1) 0)
    (fun m n p => (Complex.I * 0.5 * ei phi * ei theta - Complex.I * 0.5 * ei phi) * sqA m * sqA p * T (ix c ((m : ℤ) - 1)) n (p - 1) 0
            - (0.5 * ei phi + 0.5 * ei phi * ei theta) * sqA n * sqA p * T m (ix c ((n : ℤ) - 1)) (p - 1) 0)
    (fun m n p q => Complex.I * 0.5 * ei phi * ei theta * sqA m * sqA p * T (ix c ((m : ℤ) - 1)) n (ix c ((p : ℤ) - 1)) q
          - 0.5 * ei phi * ei theta * sqA n * sqA p * T m (ix c ((n : ℤ) - 1)) (ix c ((p : ℤ) - 1)) q
          - 0.5 * ei theta * sqA m * sqA q * T (ix c ((m : ℤ) - 1)) n p (q - 1)
          - Complex.I * 0.5 * ei theta * sqA n * sqA q * T m (ix c ((n : ℤ) - 1)) p (q - 1))
    (fun m n p q => (Complex.I * 0.5 * ei phi * ei theta - Complex.I * 0.5 * ei phi) * sqA m * sqA p * T (ix c ((m : ℤ) - 1)) n (ix c ((p : ℤ) - 1)) q
            - (0.5 * ei phi + 0.5 * ei phi * ei theta) * sqA n * sqA p * T m (ix c ((n : ℤ) - 1)) (ix c ((p : ℤ) - 1)) q)
    m n p q hm hn hp hq (gradMzgate c T theta phi) rfl
  rw [e1, e2]
  simp only [hT, mzgate_amp _ _ c m n p q hm hn hp hq]
  simp only [← hT]
  have d1 : 0 < p → sqA m * (sqA p * T (ix c ((m : ℤ) - 1)) n (p - 1) 0) = root m * (root p * intA (mzgateU theta phi) (m - 1) n (p - 1) 0) :=
    root_prev_pos (fun i j => T i n j 0) (fun i j => intA (mzgateU theta phi) i n j 0) (fun i hi j hj => hA i hi n hn j hj 0 (by omega)) hm hp
  have d2 : 0 < p → sqA n * (sqA p * T m (ix c ((n : ℤ) - 1)) (p - 1) 0) = root n * (root p * intA (mzgateU theta phi) m (n - 1) (p - 1) 0) :=
    root_prev_pos (fun i j => T m i j 0) (fun i j => intA (mzgateU theta phi) m i j 0) (fun i hi j hj => hA m hm i hi j hj 0 (by omega)) hn hp
  have f1 : sqA m * (sqA p * T (ix c ((m : ℤ) - 1)) n (ix c ((p : ℤ) - 1)) q) = root m * (root p * intA (mzgateU theta phi) (m - 1) n (p - 1) q) :=
    root_prev_prev (fun i j => T i n j q) (fun i j => intA (mzgateU theta phi) i n j q) (fun i hi j hj => hA i hi n hn j hj q hq) hm hp
  have f2 : sqA n * (sqA p * T m (ix c ((n : ℤ) - 1)) (ix c ((p : ℤ) - 1)) q) = root n * (root p * intA (mzgateU theta phi) m (n - 1) (p - 1) q) :=
    root_prev_prev (fun i j => T m i j q) (fun i j => intA (mzgateU theta phi) m i j q) (fun i hi j hj => hA m hm i hi j hj q hq) hn hp
  have f3 : 0 < q → sqA m * (sqA q * T (ix c ((m : ℤ) - 1)) n p (q - 1)) = root m * (root q * intA (mzgateU theta phi) (m - 1) n p (q - 1)) :=
    root_prev_pos (fun i j => T i n p j) (fun i j => intA (mzgateU theta phi) i n p j) (fun i hi j hj => hA i hi n hn p hp j hj) hm hq
  have f4 : 0 < q → sqA n * (sqA q * T m (ix c ((n : ℤ) - 1)) p (q - 1)) = root n * (root q * intA (mzgateU theta phi) m (n - 1) p (q - 1)) :=
    root_prev_pos (fun i j => T m i p j) (fun i j => intA (mzgateU theta phi) m i p j) (fun i hi j hj => hA m hm i hi p hp j hj) hn hq
  have hI : Complex.I ^ 2 = -1 := Complex.I_sq
  constructor
  · refine gradLoops_correct (fun s => mzgateU s phi) !![0.5 * (ei phi * (Complex.I * ei theta)), 0.5 * (Complex.I * (Complex.I * ei theta));
      0.5 * (Complex.I * ei phi * (Complex.I * ei theta)), 0.5 * -(Complex.I * ei theta)] theta
      (fun i j => ?_) m n p q _ _ (fun h => ?_) (fun h => ?_)
    · simp only [mzgateU_eq]
      have he := hasDerivAt_ei theta
      fin_cases i <;> fin_cases j
      · exact ((he.sub_const 1).const_mul _).const_mul _
      · exact ((he.const_add 1).const_mul _).const_mul _
      · exact ((he.const_add 1).const_mul _).const_mul _
      · exact (he.const_sub 1).const_mul _
    · simp only [Matrix.of_apply, Matrix.cons_val', Matrix.cons_val_zero, Matrix.cons_val_one, Matrix.cons_val_fin_one]
      linear_combination Complex.I * 0.5 * ei phi * ei theta * d1 h - 0.5 * ei phi * ei theta * d2 h -
        0.5 * ei phi * ei theta * root n * root p * intA (mzgateU theta phi) m (n - 1) (p - 1) 0 * hI
    · simp only [Matrix.of_apply, Matrix.cons_val', Matrix.cons_val_zero, Matrix.cons_val_one, Matrix.cons_val_fin_one]
      linear_combination Complex.I * 0.5 * ei phi * ei theta * f1 - 0.5 * ei phi * ei theta * f2 - 0.5 * ei theta * f3 h - Complex.I * 0.5 * ei theta * f4 h -
        (0.5 * ei phi * ei theta * root n * root p * intA (mzgateU theta phi) m (n - 1) (p - 1) q + 0.5 * ei theta * root m * root q * intA (mzgateU theta phi) (m - 1) n p (q - 1)) * hI
  · refine gradLoops_correct (fun s => mzgateU theta s) !![0.5 * (Complex.I * ei phi * (ei theta - 1)), 0;
      0.5 * (Complex.I * (Complex.I * ei phi) * (1 + ei theta)), 0] phi
      (fun i j => ?_) m n p q _ _ (fun h => ?_) (fun h => ?_)
    · simp only [mzgateU_eq]
      have he := hasDerivAt_ei phi
      fin_cases i <;> fin_cases j
      · exact (he.mul_const _).const_mul _
      · exact hasDerivAt_const _ _
      · exact ((he.const_mul _).mul_const _).const_mul _
      · exact hasDerivAt_const _ _
    · simp only [Matrix.of_apply, Matrix.cons_val', Matrix.cons_val_zero, Matrix.cons_val_one, Matrix.cons_val_fin_one]
      linear_combination (Complex.I * 0.5 * ei phi * ei theta - Complex.I * 0.5 * ei phi) * d1 h - (0.5 * ei phi + 0.5 * ei phi * ei theta) * d2 h -
        (0.5 * ei phi + 0.5 * ei phi * ei theta) * root n * root p * intA (mzgateU theta phi) m (n - 1) (p - 1) 0 * hI
    · simp only [Matrix.of_apply, Matrix.cons_val', Matrix.cons_val_zero, Matrix.cons_val_one, Matrix.cons_val_fin_one]
      linear_combination (Complex.I * 0.5 * ei phi * ei theta - Complex.I * 0.5 * ei phi) * f1 - (0.5 * ei phi + 0.5 * ei phi * ei theta) * f2 -
        (0.5 * ei phi + 0.5 * ei phi * ei theta) * root n * root p * intA (mzgateU theta phi) m (n - 1) (p - 1) q * hI

end Verif.Props
