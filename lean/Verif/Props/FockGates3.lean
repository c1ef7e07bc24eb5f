/-
C49: `two_mode_squeezing` and its gradient.
-/
import Verif.Props.FockGates2

set_option linter.unusedSimpArgs false
set_option linter.unusedSectionVars false

namespace Verif.Props
open Verif Verif.Model Verif.Model.FG Verif.Spec Verif.Lemmas

noncomputable def tmsR (r theta : ℝ) : Matrix (Fin 4) (Fin 4) ℂ :=
  !![0, ei theta * (Real.tanh r : ℂ), (sech r : ℂ), 0; ei theta * (Real.tanh r : ℂ), 0, 0, (sech r : ℂ);
    (sech r : ℂ), 0, 0, -(ei (-theta) * (Real.tanh r : ℂ)); 0, (sech r : ℂ), -(ei (-theta) * (Real.tanh r : ℂ)), 0]

theorem tmsR_symm (r theta : ℝ) : (tmsR r theta).IsSymm := by
  ext i j; fin_cases i <;> fin_cases j <;> rfl

/-- the amplitudes of the two-mode squeezing -/
noncomputable def tmsA (r theta : ℝ) (m n p q : ℕ) : ℂ := fockAmp (sech r : ℂ) (tmsR r theta) 0 ![m, n, p, q]

theorem tmsA_m (r theta : ℝ) (m n p q : ℕ) : root (m + 1) * tmsA r theta (m + 1) n p q =
    ei theta * (Real.tanh r : ℂ) * (root n * tmsA r theta m (n - 1) p q) + (sech r : ℂ) * (root p * tmsA r theta m n (p - 1) q) := by
  have := fockAmp4_m (sech r : ℂ) (tmsR r theta) (tmsR_symm r theta) m n p q
  unfold row4 at this
  rw [show tmsR r theta 0 0 = 0 from rfl, show tmsR r theta 0 1 = ei theta * (Real.tanh r : ℂ) from rfl, show tmsR r theta 0 2 = (sech r : ℂ) from rfl, show tmsR r theta 0 3 = 0 from rfl] at this
  unfold tmsA; linear_combination this

theorem tmsA_n (r theta : ℝ) (m n p q : ℕ) : root (n + 1) * tmsA r theta m (n + 1) p q =
    ei theta * (Real.tanh r : ℂ) * (root m * tmsA r theta (m - 1) n p q) + (sech r : ℂ) * (root q * tmsA r theta m n p (q - 1)) := by
  have := fockAmp4_n (sech r : ℂ) (tmsR r theta) (tmsR_symm r theta) m n p q
  unfold row4 at this
  rw [show tmsR r theta 1 0 = ei theta * (Real.tanh r : ℂ) from rfl, show tmsR r theta 1 1 = 0 from rfl, show tmsR r theta 1 2 = 0 from rfl, show tmsR r theta 1 3 = (sech r : ℂ) from rfl] at this
  unfold tmsA; linear_combination this

theorem tmsA_p (r theta : ℝ) (m n p q : ℕ) : root (p + 1) * tmsA r theta m n (p + 1) q =
    (sech r : ℂ) * (root m * tmsA r theta (m - 1) n p q) - ei (-theta) * (Real.tanh r : ℂ) * (root q * tmsA r theta m n p (q - 1)) := by
  have := fockAmp4_p (sech r : ℂ) (tmsR r theta) (tmsR_symm r theta) m n p q
  unfold row4 at this
  rw [show tmsR r theta 2 0 = (sech r : ℂ) from rfl, show tmsR r theta 2 1 = 0 from rfl, show tmsR r theta 2 2 = 0 from rfl, show tmsR r theta 2 3 = -(ei (-theta) * (Real.tanh r : ℂ)) from rfl] at this
  unfold tmsA; linear_combination this

theorem tmsA_q (r theta : ℝ) (m n p q : ℕ) : root (q + 1) * tmsA r theta m n p (q + 1) =
    (sech r : ℂ) * (root n * tmsA r theta m (n - 1) p q) - ei (-theta) * (Real.tanh r : ℂ) * (root p * tmsA r theta m n (p - 1) q) := by
  have := fockAmp4_q (sech r : ℂ) (tmsR r theta) (tmsR_symm r theta) m n p q
  unfold row4 at this
  rw [show tmsR r theta 3 0 = 0 from rfl, show tmsR r theta 3 1 = (sech r : ℂ) from rfl, show tmsR r theta 3 2 = -(ei (-theta) * (Real.tanh r : ℂ)) from rfl, show tmsR r theta 3 3 = 0 from rfl] at this
  unfold tmsA; linear_combination this

/-- **C49.** Two-mode squeezing conserves the difference of the photon numbers. -/
theorem tmsA_selection (r theta : ℝ) (m n p q : ℕ) (h : m + q ≠ n + p) : tmsA r theta m n p q = 0 := by
  refine fockAmp_selection (W := ℤ) _ _ (tmsR_symm r theta) 0 ![1, -1, -1, 1] (fun i j hij => ?_) (fun i hi => absurd rfl hi) ![m, n, p, q] ?_
  · fin_cases i <;> fin_cases j <;> first | rfl | exact absurd rfl hij
  · rw [Fin.sum_univ_four]
    simp
    omega

theorem twoModeSqueezing_amp (r theta : ℝ) (c m n p q : ℕ) (hm : m < c) (hn : n < c) (hp : p < c) (hq : q < c) :
    twoModeSqueezing r theta c m n p q = tmsA r theta m n p q := by
  unfold twoModeSqueezing
  have hconj : -(-(starRingEnd ℂ) (ei (-theta) * (Real.tanh r : ℂ))) = ei theta * (Real.tanh r : ℂ) := by
    rw [neg_neg, map_mul, ei_conj, neg_neg, Complex.conj_ofReal]
  rw [hconj, neg_neg]
  -- the diagonal
  have h2 := forRange2_inv (fun k (Z : Arr4) => (∀ m n p, p = 0 → (m = n → m < k) → Z m n p 0 = tmsA r theta m n p 0) ∧ ∀ m n p x, (p ≠ 0 ∨ x ≠ 0) → Z m n p x = 0)
    (a := 1) (b := c) (by omega) (upd4 (fun _ _ _ _ => 0) 0 0 0 0 (sech r : ℂ))
    (fun n Z => upd4 Z n n 0 0 (ei theta * (Real.tanh r : ℂ) * Z (n - 1) (n - 1) 0 0))
    ⟨fun m n p hp h => by
      subst hp
      unfold upd4
      split_ifs with e
      · obtain ⟨rfl, rfl, _, _⟩ := e
        unfold tmsA; rw [fockAmp4_zero]
      · rw [tmsA_selection]
        intro e'
        exact e ⟨by omega, by omega, rfl, rfl⟩,
    fun m n p x h => by unfold upd4; rw [if_neg (by omega)]⟩
    (fun k Z hk hkc hZ => by
      refine ⟨fun m n p hp h => ?_, fun m n p x h => ?_⟩
      · subst hp
        unfold upd4
        split_ifs with e
        · obtain ⟨rfl, rfl, _, _⟩ := e
          have := tmsA_m r theta (n - 1) n 0 0
          rw [root_zero, show n - 1 + 1 = n by omega] at this
          have hne := root_ne (show 0 < n by omega)
          rw [hZ.1 (n - 1) (n - 1) 0 rfl (fun _ => by omega)]
          apply mul_left_cancel₀ hne
          linear_combination -this
        · exact hZ.1 m n 0 rfl (fun e' => by
            have := h e'
            have : m ≠ k := fun e'' => e ⟨e'', by omega, rfl, rfl⟩
            omega)
      · unfold upd4
        rw [if_neg (by omega)]
        exact hZ.2 m n p x h)
  have h3 := fill3 c (fun m => m) (fun m hm => hm.le) (fun m n => m - n)
    (fun m n Z => -(-(sech r : ℂ)) * sqA m / sqA (m - n) * Z (ix c ((m : ℤ) - 1)) n (m - n - 1) 0)
    (forRange2 1 c (upd4 (fun _ _ _ _ => 0) 0 0 0 0 (sech r : ℂ)) fun n Z => upd4 Z n n 0 0 (ei theta * (Real.tanh r : ℂ) * Z (n - 1) (n - 1) 0 0)) (tmsA r theta)
    (fun m hm n hn p hp h => by
      by_cases h0 : p = 0
      · exact h2.1 m n p h0 (fun _ => hm)
      · rw [h2.2 m n p 0 (.inl h0), tmsA_selection]
        omega)
    (fun m n p x hx => h2.2 m n p x (.inr hx))
    (fun m hm n hn hp hp0 B hB => by
      have := tmsA_p r theta m n (m - n - 1) 0
      rw [root_zero, show m - n - 1 + 1 = m - n by omega] at this
      have hne := root_ne hp0
      rw [ix_pred (by omega), hB (m - 1) (by omega) n (by omega) (m - n - 1) (by omega) (by omega), sqA_eq, sqA_eq]
      field_simp
      linear_combination -this)
  simp only [neg_neg] at h3
  refine fill4 c (fun m n p => (p : ℤ) - ((m : ℤ) - n)) (fun m n p Z => (sech r : ℂ) * sqA n / sqA ((p : ℤ) - ((m : ℤ) - n)).toNat * Z m (ix c ((n : ℤ) - 1)) p (((p : ℤ) - ((m : ℤ) - n)).toNat - 1)
    + -(ei (-theta) * (Real.tanh r : ℂ)) * sqA p / sqA ((p : ℤ) - ((m : ℤ) - n)).toNat * Z m n (ix c ((p : ℤ) - 1)) (((p : ℤ) - ((m : ℤ) - n)).toNat - 1)) _ (tmsA r theta) ?_ ?_ m hm n hn p hp q hq
  · intro m hm n hn p hp x hx h
    by_cases h0 : x = 0
    · subst h0; exact h3.1 m hm n hn p hp
    · rw [tmsA_selection r theta m n p x (by omega)]
      exact h3.2 m n p x h0
  · intro m hm n hn p hp x hx hx0 hq B hB
    have := tmsA_q r theta m n p (x - 1)
    rw [show x - 1 + 1 = x by omega] at this
    have hne := root_ne hx0
    have e1 : sqA n * B m (ix c ((n : ℤ) - 1)) p (x - 1) = root n * tmsA r theta m (n - 1) p (x - 1) := by
      rcases Nat.eq_zero_or_pos n with rfl | hm0
      · rw [sqA_eq]; simp
      · rw [ix_pred hm0, hB m hm (n - 1) (by omega) p hp (x - 1) (by omega) (.inr (.inr (by unfold Before; omega))), sqA_eq]
    have e2 : sqA p * B m n (ix c ((p : ℤ) - 1)) (x - 1) = root p * tmsA r theta m n (p - 1) (x - 1) := by
      rcases Nat.eq_zero_or_pos p with rfl | hm0
      · rw [sqA_eq]; simp
      · rw [ix_pred hm0, hB m hm n hn (p - 1) (by omega) (x - 1) (by omega) (.inr (.inr (by unfold Before; omega))), sqA_eq]
    have ex : ((p : ℤ) - ((m : ℤ) - n)).toNat = x := by rw [hq]; rfl
    rw [ex, sqA_eq x]
    field_simp
    linear_combination (sech r : ℂ) * e1 - ei (-theta) * (Real.tanh r : ℂ) * e2 - this

/-- **C49.** `two_mode_squeezing(r, theta, cutoff)` is the corner of the two-mode squeezing operator, for every cutoff. -/
theorem twoModeSqueezing_correct (r theta : ℝ) (Z : ℕ → ℕ → ℕ → ℕ → ℂ) (hZ : IsTwoModeSqueezing r (Complex.exp (Complex.I * theta)) Z) (c m n p q : ℕ)
    (hm : m < c) (hn : n < c) (hp : p < c) (hq : q < c) : twoModeSqueezing r theta c m n p q = Z m n p q := by
  rw [twoModeSqueezing_amp r theta c m n p q hm hn hp hq]
  symm
  have hch := ofReal_cosh_ne r
  have hcs := ofReal_cosh_sq r
  have hee := ei_mul_neg theta
  have hc : (starRingEnd ℂ) (Complex.exp (Complex.I * theta)) = ei (-theta) := ei_conj theta
  refine fockAmp_unique (sech r : ℂ) (tmsR r theta) (tmsR_symm r theta) 0 (fun k => Z (k 0) (k 1) (k 2) (k 3)) hZ.vac ?_ ![m, n, p, q]
  intro k i
  rw [Fin.sum_univ_four]
  have h1 := hZ.ann1 (k 0) (k 1) (k 2) (k 3)
  have h2 := hZ.ann2 (k 0) (k 1) (k 2) (k 3)
  have h3 := hZ.cre1 (k 0) (k 1) (k 2) (k 3)
  have h4 := hZ.cre2 (k 0) (k 1) (k 2) (k 3)
  rw [hc] at h3 h4
  change _ = _ + ei theta * _ * _ at h1
  change _ = _ + ei theta * _ * _ at h2
  have ht : Complex.tanh (r : ℂ) = (Real.sinh r : ℂ) / (Real.cosh r : ℂ) := by rw [← Complex.ofReal_tanh, ofReal_tanh']
  fin_cases i
  · simp [s4_0, s4_1, s4_2, s4_3, tmsR]
    rw [ofReal_sech, ht]
    field_simp
    rw [h4] at h1
    apply mul_left_cancel₀ hch
    linear_combination h1 + root (k 0 + 1) * Z (k 0 + 1) (k 1) (k 2) (k 3) * hcs - root (k 0 + 1) * Z (k 0 + 1) (k 1) (k 2) (k 3) * (Real.sinh r : ℂ) ^ 2 * hee
  · simp [s4_0, s4_1, s4_2, s4_3, tmsR]
    rw [ofReal_sech, ht]
    field_simp
    rw [h3] at h2
    apply mul_left_cancel₀ hch
    linear_combination h2 + root (k 1 + 1) * Z (k 0) (k 1 + 1) (k 2) (k 3) * hcs - root (k 1 + 1) * Z (k 0) (k 1 + 1) (k 2) (k 3) * (Real.sinh r : ℂ) ^ 2 * hee
  · simp [s4_0, s4_1, s4_2, s4_3, tmsR]
    rw [ofReal_sech, ht]
    field_simp
    rw [h2] at h3
    apply mul_left_cancel₀ hch
    linear_combination h3 + root (k 2 + 1) * Z (k 0) (k 1) (k 2 + 1) (k 3) * hcs - root (k 2 + 1) * Z (k 0) (k 1) (k 2 + 1) (k 3) * (Real.sinh r : ℂ) ^ 2 * hee
  · simp [s4_0, s4_1, s4_2, s4_3, tmsR]
    rw [ofReal_sech, ht]
    field_simp
    rw [h1] at h4
    apply mul_left_cancel₀ hch
    linear_combination h4 + root (k 3 + 1) * Z (k 0) (k 1) (k 2) (k 3 + 1) * hcs - root (k 3 + 1) * Z (k 0) (k 1) (k 2) (k 3 + 1) * (Real.sinh r : ℂ) ^ 2 * hee

/-- The two-mode squeezing operator exists. -/
theorem twoModeSqueezing_exists (r theta : ℝ) : IsTwoModeSqueezing r (Complex.exp (Complex.I * theta)) (tmsA r theta) := by
  have hch := ofReal_cosh_ne r
  have hcs := ofReal_cosh_sq r
  have hee := ei_mul_neg theta
  have hc : (starRingEnd ℂ) (Complex.exp (Complex.I * theta)) = ei (-theta) := ei_conj theta
  refine ⟨fockAmp4_zero _ _ _, fun m n p q => ?_, fun m n p q => ?_, fun m n p q => ?_, fun m n p q => ?_⟩
  · rw [tmsA_m, tmsA_q, ofReal_sech, ofReal_tanh']
    change _ = _ + ei theta * _ * _
    field_simp
    linear_combination (-root p * tmsA r theta m n (p - 1) q) * hcs + (Real.sinh r : ℂ) ^ 2 * root p * tmsA r theta m n (p - 1) q * hee
  · rw [tmsA_n, tmsA_p, ofReal_sech, ofReal_tanh']
    change _ = _ + ei theta * _ * _
    field_simp
    linear_combination (-root q * tmsA r theta m n p (q - 1)) * hcs + (Real.sinh r : ℂ) ^ 2 * root q * tmsA r theta m n p (q - 1) * hee
  · rw [tmsA_p, tmsA_n, ofReal_sech, ofReal_tanh', hc]
    field_simp
    linear_combination (-root m * tmsA r theta (m - 1) n p q) * hcs + (Real.sinh r : ℂ) ^ 2 * root m * tmsA r theta (m - 1) n p q * hee
  · rw [tmsA_q, tmsA_m, ofReal_sech, ofReal_tanh', hc]
    field_simp
    linear_combination (-root n * tmsA r theta m (n - 1) p q) * hcs + (Real.sinh r : ℂ) ^ 2 * root n * tmsA r theta m (n - 1) p q * hee

/-- only the last loop of the gradient matters -/
theorem gradTms_entry (c : ℕ) (F G : Arr4) (g0 : Arr4 × Arr4) (m n p q : ℕ) (hm : m < c) (hn : n < c) (hp : p < c) (hq : q < c) (g : Arr4 × Arr4)
    (hg : g = forRange c g0 fun m g => forRange c g fun n g => forRange c g fun p g => forRange c g fun q g =>
      (upd4 g.1 m n p q (F m n p q), upd4 g.2 m n p q (G m n p q))) : g.1 m n p q = F m n p q ∧ g.2 m n p q = G m n p q := by
  rw [hg]
  constructor
  · rw [forRange_map Prod.fst c _ _ (fun m A => forRange c A fun n A => forRange c A fun p A => forRange c A fun q A => upd4 A m n p q (F m n p q))
      (fun m s => forRange_map Prod.fst c _ _ (fun n A => forRange c A fun p A => forRange c A fun q A => upd4 A m n p q (F m n p q))
        fun n s => forRange_map Prod.fst c _ _ (fun p A => forRange c A fun q A => upd4 A m n p q (F m n p q)) fun p s => forRange_map Prod.fst c _ _ _ fun q s => rfl)]
    exact assign4 c F _ m hm n hn p hp q hq
  · rw [forRange_map Prod.snd c _ _ (fun m A => forRange c A fun n A => forRange c A fun p A => forRange c A fun q A => upd4 A m n p q (G m n p q))
      (fun m s => forRange_map Prod.snd c _ _ (fun n A => forRange c A fun p A => forRange c A fun q A => upd4 A m n p q (G m n p q))
        fun n s => forRange_map Prod.snd c _ _ (fun p A => forRange c A fun q A => upd4 A m n p q (G m n p q)) fun p s => forRange_map Prod.snd c _ _ _ fun q s => rfl)]
    exact assign4 c G _ m hm n hn p hp q hq

/-- **C49.** `grad_two_mode_squeezing` returns the derivatives of the entries in `r` and in `theta`. -/
theorem gradTwoModeSqueezing_correct (r theta : ℝ) (c m n p q : ℕ) (hm : m < c) (hn : n < c) (hp : p < c) (hq : q < c) :
    HasDerivAt (fun s => twoModeSqueezing s theta c m n p q) ((gradTwoModeSqueezing c (twoModeSqueezing r theta c) r theta).1 m n p q) r ∧
    HasDerivAt (fun s => twoModeSqueezing r s c m n p q) ((gradTwoModeSqueezing c (twoModeSqueezing r theta c) r theta).2 m n p q) theta := by
  set T := twoModeSqueezing r theta c with hT
  have hA : ∀ i < c, ∀ j < c, ∀ k < c, ∀ l < c, T i j k l = tmsA r theta i j k l :=
    fun i hi j hj k hk l hl => twoModeSqueezing_amp r theta c i j k l hi hj hk hl
  obtain ⟨e1, e2⟩ := gradTms_entry c
    (fun m n p q => -(Real.tanh r : ℂ) * T m n p q
        + sqA m * sqA n * ei theta * (sech r : ℂ) ^ 2 * T (ix c ((m : ℤ) - 1)) (ix c ((n : ℤ) - 1)) p q
        - (Real.tanh r : ℂ) * (sech r : ℂ) * sqA m * sqA p * T (ix c ((m : ℤ) - 1)) n (ix c ((p : ℤ) - 1)) q
        - (Real.tanh r : ℂ) * (sech r : ℂ) * sqA n * sqA q * T m (ix c ((n : ℤ) - 1)) p (ix c ((q : ℤ) - 1))
        - sqA p * sqA q * ei (-theta) * (sech r : ℂ) ^ 2 * T m n (ix c ((p : ℤ) - 1)) (ix c ((q : ℤ) - 1)))
    (fun m n p q => Complex.I * ei theta * (Real.tanh r : ℂ) * sqA m * sqA n * T (ix c ((m : ℤ) - 1)) (ix c ((n : ℤ) - 1)) p q
          + Complex.I * ei (-theta) * (Real.tanh r : ℂ) * sqA p * sqA q * T m n (ix c ((p : ℤ) - 1)) (ix c ((q : ℤ) - 1)))
    _ m n p q hm hn hp hq (gradTwoModeSqueezing c T r theta) rfl
  rw [e1, e2]
  simp only [hT, twoModeSqueezing_amp _ _ c m n p q hm hn hp hq]
  simp only [← hT]
  have f1 : sqA m * (sqA n * T (ix c ((m : ℤ) - 1)) (ix c ((n : ℤ) - 1)) p q) = root m * (root n * tmsA r theta (m - 1) (n - 1) p q) :=
    root_prev_prev (fun i j => T i j p q) (fun i j => tmsA r theta i j p q) (fun i hi j hj => hA i hi j hj p hp q hq) hm hn
  have f2 : sqA m * (sqA p * T (ix c ((m : ℤ) - 1)) n (ix c ((p : ℤ) - 1)) q) = root m * (root p * tmsA r theta (m - 1) n (p - 1) q) :=
    root_prev_prev (fun i j => T i n j q) (fun i j => tmsA r theta i n j q) (fun i hi j hj => hA i hi n hn j hj q hq) hm hp
  have f3 : sqA n * (sqA q * T m (ix c ((n : ℤ) - 1)) p (ix c ((q : ℤ) - 1))) = root n * (root q * tmsA r theta m (n - 1) p (q - 1)) :=
    root_prev_prev (fun i j => T m i p j) (fun i j => tmsA r theta m i p j) (fun i hi j hj => hA m hm i hi p hp j hj) hn hq
  have f4 : sqA p * (sqA q * T m n (ix c ((p : ℤ) - 1)) (ix c ((q : ℤ) - 1))) = root p * (root q * tmsA r theta m n (p - 1) (q - 1)) :=
    root_prev_prev (fun i j => T m n i j) (fun i j => tmsA r theta m n i j) (fun i hi j hj => hA m hm n hn i hi j hj) hp hq
  have hs' : HasDerivAt (fun s : ℝ => (sech s : ℂ)) (-((Real.tanh r : ℂ) * (sech r : ℂ))) r := (hasDerivAt_sech r).ofReal_comp.congr_deriv (by push_cast; ring)
  have ht' : HasDerivAt (fun s : ℝ => (Real.tanh s : ℂ)) ((sech r : ℂ) ^ 2) r := (hasDerivAt_tanh' r).ofReal_comp.congr_deriv (by push_cast; rfl)
  constructor
  · refine (fockAmp4_deriv (fun s => (sech s : ℂ)) (fun s => tmsR s theta) (fun s => tmsR_symm s theta) (-((Real.tanh r : ℂ) * (sech r : ℂ))) (-(Real.tanh r : ℂ))
      !![0, ei theta * (sech r : ℂ) ^ 2, -((Real.tanh r : ℂ) * (sech r : ℂ)), 0; ei theta * (sech r : ℂ) ^ 2, 0, 0, -((Real.tanh r : ℂ) * (sech r : ℂ));
        -((Real.tanh r : ℂ) * (sech r : ℂ)), 0, 0, -(ei (-theta) * (sech r : ℂ) ^ 2); 0, -((Real.tanh r : ℂ) * (sech r : ℂ)), -(ei (-theta) * (sech r : ℂ) ^ 2), 0] ?_ r
      hs' (by ring) ?_ ?_ m n p q).congr_deriv ?_
    · ext i j; fin_cases i <;> fin_cases j <;> rfl
    · intro i j
      fin_cases i <;> fin_cases j <;> first | exact hasDerivAt_const _ _ | exact hs' | exact ht'.const_mul _ | exact (ht'.const_mul _).fun_neg
    · intro i; fin_cases i <;> rfl
    · change -(Real.tanh r : ℂ) * tmsA r theta m n p q + (ei theta * (sech r : ℂ) ^ 2 * (root m * (root n * tmsA r theta (m - 1) (n - 1) p q)) +
        -((Real.tanh r : ℂ) * (sech r : ℂ)) * (root m * (root p * tmsA r theta (m - 1) n (p - 1) q)) + 0 * (root m * (root q * tmsA r theta (m - 1) n p (q - 1))) +
        0 * (root n * (root p * tmsA r theta m (n - 1) (p - 1) q)) + -((Real.tanh r : ℂ) * (sech r : ℂ)) * (root n * (root q * tmsA r theta m (n - 1) p (q - 1))) +
        -(ei (-theta) * (sech r : ℂ) ^ 2) * (root p * (root q * tmsA r theta m n (p - 1) (q - 1)))) = _
      linear_combination -ei theta * (sech r : ℂ) ^ 2 * f1 + (Real.tanh r : ℂ) * (sech r : ℂ) * f2 + (Real.tanh r : ℂ) * (sech r : ℂ) * f3 + ei (-theta) * (sech r : ℂ) ^ 2 * f4
  · refine (fockAmp4_deriv (fun _ => (sech r : ℂ)) (fun s => tmsR r s) (fun s => tmsR_symm r s) 0 0
      !![0, Complex.I * ei theta * (Real.tanh r : ℂ), 0, 0; Complex.I * ei theta * (Real.tanh r : ℂ), 0, 0, 0;
        0, 0, 0, Complex.I * ei (-theta) * (Real.tanh r : ℂ); 0, 0, Complex.I * ei (-theta) * (Real.tanh r : ℂ), 0] ?_ theta
      (hasDerivAt_const _ _) (by simp) ?_ ?_ m n p q).congr_deriv ?_
    · ext i j; fin_cases i <;> fin_cases j <;> rfl
    · intro i j
      have h1 : HasDerivAt (fun s => ei s * (Real.tanh r : ℂ)) (Complex.I * ei theta * (Real.tanh r : ℂ)) theta := (hasDerivAt_ei theta).mul_const _
      have h2 : HasDerivAt (fun s => -(ei (-s) * (Real.tanh r : ℂ))) (Complex.I * ei (-theta) * (Real.tanh r : ℂ)) theta :=
        ((hasDerivAt_ei_neg theta).mul_const _).fun_neg.congr_deriv (by ring)
      fin_cases i <;> fin_cases j <;> first | exact hasDerivAt_const _ _ | exact h1 | exact h2
    · intro i; fin_cases i <;> rfl
    · change 0 * tmsA r theta m n p q + (Complex.I * ei theta * (Real.tanh r : ℂ) * (root m * (root n * tmsA r theta (m - 1) (n - 1) p q)) +
        0 * (root m * (root p * tmsA r theta (m - 1) n (p - 1) q)) + 0 * (root m * (root q * tmsA r theta (m - 1) n p (q - 1))) +
        0 * (root n * (root p * tmsA r theta m (n - 1) (p - 1) q)) + 0 * (root n * (root q * tmsA r theta m (n - 1) p (q - 1))) +
        Complex.I * ei (-theta) * (Real.tanh r : ℂ) * (root p * (root q * tmsA r theta m n (p - 1) (q - 1)))) = _
      linear_combination -Complex.I * ei theta * (Real.tanh r : ℂ) * f1 - Complex.I * ei (-theta) * (Real.tanh r : ℂ) * f4

end Verif.Props
