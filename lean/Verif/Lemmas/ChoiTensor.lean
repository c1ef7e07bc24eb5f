/-
The tensors computed by the two branches of `fock_tensor`.
-/
import Verif.Lemmas.GaussUnitaryNorm
import Verif.Props.FockPure

set_option linter.unusedSectionVars false
set_option linter.unusedSimpArgs false

namespace Verif.Lemmas.Heis
open Verif.Spec Verif.Lemmas Matrix Verif.Props Verif.Model Verif.Model.Symp Verif.Model.Conv Verif.Model.Fock Verif.Lemmas.Symp Verif.Lemmas.FockS

/-- rescaling of a loop hafnian -/
theorem lh_rescale {ι K : Type*} [CommRing K] (s D : ι → K) (A : ι → ι → K) (L : List ι) :
    lh (fun i => s i * D i) (fun i j => s i * A i j * s j) L = (L.map s).prod * lh D A L := by
  induction hn : L.length using Nat.strong_induction_on generalizing L with
  | _ n ih =>
    cases L with
    | nil => simp
    | cons x L =>
      simp only [List.length_cons] at hn
      rw [lh_cons, lh_cons, ih L.length (by omega) L rfl, List.map_cons, List.prod_cons, mul_add, ← eSum_mul_left]
      congr 1
      · ring
      · apply eSum_congr'
        intro y ys hp
        have hl := hp.length_eq
        simp only [List.length_cons] at hl
        rw [ih ys.length (by omega) ys rfl]
        have := (hp.map s).prod_eq
        rw [List.map_cons, List.prod_cons] at this
        rw [← this]; ring

theorem rep_prod {n : ℕ} (s : ℕ → ℂ) (k : Fin n → ℕ) : ((repeatedIndices (List.ofFn k)).map s).prod = ∏ a : Fin n, s a ^ k a := by
  rw [prod_repeated, List.length_ofFn, ← List.prod_toFinset _ List.nodup_range, List.toFinset_range, Finset.prod_range]
  refine Finset.prod_congr rfl fun a _ => ?_
  congr 1
  rw [List.getD_eq_getElem _ _ (by simp)]; simp

/-- the rescaling of `state_vector` -/
noncomputable def resc (l : ℕ) (r : ℝ) (i : ℕ) : ℂ := if i < l then 1 else ((1 / Real.tanh r : ℝ) : ℂ)

variable {l : ℕ} {cov : ℕ → ℕ → ℝ} {hbar : ℝ}

theorem resc_conj (r : ℝ) (i : ℕ) : (starRingEnd ℂ) (resc l r i) = resc l r i := by
  unfold resc
  split_ifs
  · simp
  · exact Complex.conj_ofReal _

/-- the value of the tensor computed by `state_vector` with a squeezing parameter for the Choi expansion -/
theorem sva_choi {sjunk : ℕ → ℂ} (mu : ℕ → ℝ) (hh : 0 < hbar) (hdet : 0 < (Wmat (2 * l) cov hbar).det) (hsym : ∀ i < 2 * (2 * l), ∀ j < 2 * (2 * l), cov i j = cov j i)
    (A : ℕ → ℕ → ℂ) (γ g : ℕ → ℂ) (hAs : ∀ i < 2 * (2 * l), ∀ j < 2 * (2 * l), A i j = A j i) (hg : ∀ k < 2 * l, g k = γ k) (cutoff : ℕ) (hc : 0 < cutoff)
    (hc2 : cutoff ≤ 1000) (r : ℝ) :
    ∃ T, stateVectorAll (sqrtTable sjunk) (isClose 0 0) (2 * l) (Qmat (2 * l) cov hbar) A g (Complex.exp ((starRingEnd ℂ) (pureExp (2 * l) mu hbar A))) cutoff (some r) = .ok T ∧
      ∀ n : Fin (2 * l) → ℕ, (∀ k, n k < cutoff) →
        T (List.ofFn n) = psiFn (2 * l) mu cov hbar A γ n * (∏ a : Fin (2 * l), resc l r a ^ n a) * ((Real.cosh r : ℝ) : ℂ) ^ l := by
  have hl2 : 2 * l / 2 = l := by omega
  obtain ⟨T, hT, hTv⟩ := hermite_lh (sjunk := sjunk) (close := isClose 0 0) (isClose_refl le_rfl le_rfl) (n := 2 * l)
    (fun i j => (starRingEnd ℂ) (resc l r i * A i j * resc l r j))
    (fun a ha b hb => by rw [hAs a (by omega) b (by omega)]; congr 1; ring) (some fun k => (starRingEnd ℂ) (resc l r k * g k)) cutoff hc hc2
  have e : (PyObj.arr (2 * l) (2 * l) fun i j => some ((starRingEnd ℂ) (resc l r i * A i j * resc l r j))) =
      PyObj.ofMatrix (toMatrix (2 * l) (2 * l) fun i j => (starRingEnd ℂ) (resc l r i * A i j * resc l r j)) fun i j => some ((starRingEnd ℂ) (resc l r i * A i j * resc l r j)) := by
    unfold PyObj.ofMatrix
    congr 1
    funext i j
    split_ifs <;> rfl
  have hiv := inputValidation_ok (isClose 0 0) (isClose_refl le_rfl le_rfl) (toMatrix (2 * l) (2 * l) fun i j => (starRingEnd ℂ) (resc l r i * A i j * resc l r j))
    (by ext i j
        show (starRingEnd ℂ) (resc l r j * A j i * resc l r i) = (starRingEnd ℂ) (resc l r i * A i j * resc l r j)
        rw [hAs j (by omega) i (by omega)]; congr 1; ring) fun i j => some ((starRingEnd ℂ) (resc l r i * A i j * resc l r j))
  rw [← e] at hiv
  have hcosh := Real.cosh_pos r
  have hd : Real.sqrt (Real.sqrt (toMatrix (2 * (2 * l)) (2 * (2 * l)) fun i j => Qmat (2 * l) cov hbar i j / ((Real.cosh r : ℝ) : ℂ)).det.re) =
      Real.sqrt (Real.sqrt (Wmat (2 * l) cov hbar).det) / Real.cosh r ^ l := by
    have e1 : (toMatrix (2 * (2 * l)) (2 * (2 * l)) fun i j => Qmat (2 * l) cov hbar i j / ((Real.cosh r : ℝ) : ℂ)) =
        (((Real.cosh r)⁻¹ : ℝ) : ℂ) • toMatrix (2 * (2 * l)) (2 * (2 * l)) (Qmat (2 * l) cov hbar) := by
      ext i j
      simp only [toMatrix, of_apply, Matrix.smul_apply, smul_eq_mul, Complex.ofReal_inv]
      rw [div_eq_mul_inv, mul_comm]
    rw [e1, det_smul, ← phase_det, det_Q hsym hh, Fintype.card_fin, ← Complex.ofReal_pow, ← Complex.ofReal_mul, Complex.ofReal_re, inv_pow]
    have e2 : Real.cosh r ^ (2 * (2 * l)) = (Real.cosh r ^ l * Real.cosh r ^ l) * (Real.cosh r ^ l * Real.cosh r ^ l) := by ring
    have hp : 0 < Real.cosh r ^ l := by positivity
    rw [e2, inv_mul_eq_div, Real.sqrt_div' _ (by positivity), Real.sqrt_mul_self (by positivity), Real.sqrt_div' _ (by positivity), Real.sqrt_mul_self (by positivity)]
  refine ⟨fun idx => Complex.exp ((starRingEnd ℂ) (pureExp (2 * l) mu hbar A)) * T idx / ((Real.sqrt (Real.sqrt (Wmat (2 * l) cov hbar).det) / Real.cosh r ^ l : ℝ) : ℂ), ?_, fun n hn => ?_⟩
  · unfold stateVectorAll
    simp only [bind, Except.bind, pure, Except.pure]
    rw [hl2, if_neg (by omega)]
    have hb : hafnianBatched (sqrtTable sjunk) (isClose 0 0) (isClose 0 0) (.arr (2 * l) (2 * l) fun i j => some ((starRingEnd ℂ) (resc l r i * A i j * resc l r j)))
        (List.replicate (2 * l) cutoff) (some (2 * l, fun i => (starRingEnd ℂ) (resc l r i * g i))) true true = .ok (.tensor (List.replicate (2 * l) cutoff) T) := by
      unfold hafnianBatched
      simp only [bind, Except.bind, pure, Except.pure]
      rw [hiv]
      exact hT
    unfold resc at hb
    rw [hb]
    simp only
    rw [hd]
    rfl
  · simp only
    rw [hTv n hn]
    unfold psiFn sqrtFact
    have e : lh ((some fun k => (starRingEnd ℂ) (resc l r k * g k)).getD fun _ => 0) (fun i j => (starRingEnd ℂ) (resc l r i * A i j * resc l r j)) (repeatedIndices (List.ofFn n)) =
        (∏ a : Fin (2 * l), resc l r a ^ n a) * (starRingEnd ℂ) (lh γ A (repeatedIndices (List.ofFn n))) := by
      rw [← rep_prod, lh_ringHom, ← lh_rescale]
      refine lh_congr (fun x hx => ?_) fun x _ y _ => ?_
      · have hx' : x < 2 * l := by have := repeatedIndices_lt hx; simpa using this
        simp only [Option.getD_some]
        rw [hg x hx', map_mul, resc_conj]
      · rw [map_mul, map_mul, resc_conj, resc_conj]
    rw [e]
    have h1 : ((Real.cosh r : ℝ) : ℂ) ^ l ≠ 0 := pow_ne_zero _ (Complex.ofReal_ne_zero.mpr hcosh.ne')
    rw [Complex.ofReal_div, Complex.ofReal_mul, Complex.ofReal_pow, div_div_eq_mul_div]
    ring

/-- the tensor computed by `interferometer` -/
theorem interferometer_lh {sjunk : ℕ → ℂ} {close : ℂ → ℂ → Bool} (hrefl : ∀ x, close x x = true) (A : ℕ → ℕ → ℂ) (hA : ∀ i < 2 * l, ∀ j < 2 * l, A i j = A j i)
    (hblk : ∀ i < 2 * l, ∀ j < 2 * l, (i < l ↔ j < l) → A i j = 0) (cutoff : ℕ) (hc : 0 < cutoff) (hc2 : cutoff ≤ 1000) :
    ∃ T : MArr ℂ, interferometer (sqrtTable sjunk) close (.arr (2 * l) (2 * l) fun i j => some (-A i j)) cutoff 1 true = .ok (.tensor (List.replicate (2 * l) cutoff) T) ∧
      ∀ k : Fin (2 * l) → ℕ, (∀ a, k a < cutoff) → T (List.ofFn k) = lh (fun _ => 0) A (repeatedIndices (List.ofFn k)) / ((sqrtFact k : ℝ) : ℂ) := by
  have hR : (toMatrix (2 * l) (2 * l) fun i j => -A i j).IsSymm := by ext i j; exact congrArg Neg.neg (hA j j.2 i i.2)
  have e : (PyObj.arr (2 * l) (2 * l) fun i j => some (-A i j)) = PyObj.ofMatrix (toMatrix (2 * l) (2 * l) fun i j => -A i j) fun i j => some (-A i j) := by
    unfold PyObj.ofMatrix
    congr 1
    funext i j
    split_ifs <;> rfl
  refine ⟨interferometerFillRenorm (sqrtTable sjunk) (2 * l) (entries (toMatrix (2 * l) (2 * l) fun i j => -A i j) fun i j => some (-A i j)) (List.replicate (2 * l) cutoff)
    (seedArray (2 * l) 1), ?_, fun k hk => ?_⟩
  · unfold Model.interferometer
    rw [e, inputValidation_ok close hrefl _ hR]
    simp only [bind, Except.bind, pure, Except.pure]
    rw [if_neg (by omega)]
    rfl
  · have hrepl : List.ofFn (fun _ : Fin (2 * l) => cutoff) = List.replicate (2 * l) cutoff := List.ofFn_const _ _
    rw [interferometerFillRenorm_congr (sqrtTable sjunk) (sqT ℂ) 1000 (by norm_num) (sqrtTable_lt sjunk) _ _ _ (fun c hc' => by rw [List.eq_of_mem_replicate hc']; exact hc2),
      interferometerFillRenorm_eq (sqT ℂ) sqT_ne sqT_sq l _ _ (by simp) (fun c hc' => by rw [List.eq_of_mem_replicate hc']; omega) _ 1 _
        (by rw [← hrepl]; exact (mem_ndindex_ofFn k _).mpr hk), sqFact_eq, one_mul]
    · unfold herm
      congr 1
      have hlt : ∀ x ∈ repeatedIndices (List.ofFn k), x < 2 * l := fun x hx => by have := repeatedIndices_lt hx; simpa using this
      refine lh_congr (fun _ _ => rfl) fun i hi j hj => ?_
      rw [entries_lt _ _ (hlt i hi) (hlt j hj)]
      simp [toMatrix]
    · intro i j hi hj h
      rw [entries_lt _ _ hi hj]
      simp [toMatrix, hblk i hi j hj h]

end Verif.Lemmas.Heis
