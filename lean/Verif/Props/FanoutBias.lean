/-
C93: with more than one channel per mode the sampler for threshold detectors is biased.
-/
import Verif.Props.TorontonianSamplerLaw
import Verif.Props.Tvd

set_option linter.unusedVariables false

namespace Verif.Props
open Verif Verif.Model Verif.Model.Symp Verif.Model.Conv Verif.Model.Means Verif.Model.Smp Verif.Model.Fock Verif.Model.Tor Verif.Spec Verif.Lemmas Verif.Lemmas.Symp Verif.Lemmas.Outc Verif.Lemmas.Fan Verif.Lemmas.FockS Verif.Lemmas.GInt Verif.Lemmas.Heis Verif.Lemmas.Chain Verif.Lemmas.Chol Matrix MeasureTheory

/-- the covariance matrix of a squeezed vacuum, ħ = 2 -/
noncomputable def sqCov (v : ℝ) (i j : ℕ) : ℝ := if i = j then (if i = 0 then v else 1 / v) else 0

theorem sqCov_phase (v : ℝ) : phase 1 1 (sqCov v) = diagonal (Sum.elim (fun _ => v) fun _ => 1 / v) := by
  ext p q
  rcases p with p | p <;> rcases q with q | q <;> fin_cases p <;> fin_cases q <;> simp [phase, quad, sqCov]

theorem sqCov_physical {v : ℝ} (hv : 0 < v) : Physical (phase 1 1 (sqCov v)) 2 ∧ (((2 : ℝ) / 2) • phase 1 1 (sqCov v)).det = 1 := by
  have hs := Real.sqrt_pos.mpr hv
  have hD : fromBlocks (diagonal fun _ : Fin 1 => Real.sqrt v) 0 0 (diagonal fun _ : Fin 1 => 1 / Real.sqrt v) ∈ symplecticGroup (Fin 1) ℝ := by
    refine symp_diag _ _ ?_
    rw [diagonal_transpose, diagonal_mul_diagonal, ← diagonal_one]
    congr 1; funext i
    field_simp
  refine symp_physical (by norm_num) hD ?_
  rw [sqCov_phase, fromBlocks_diagonal, diagonal_transpose, diagonal_mul_diagonal]
  norm_num
  rw [Real.mul_self_sqrt hv.le, ← mul_inv, Real.mul_self_sqrt hv.le]
  exact ⟨rfl, rfl⟩

theorem sqCov_spec {v : ℝ} (hv : 0 < v) : SympSpectrum (phase 1 1 (sqCov v)) fun _ => 1 := by
  have hs := Real.sqrt_pos.mpr hv
  refine ⟨fun _ => one_pos, fromBlocks (diagonal fun _ : Fin 1 => Real.sqrt v) 0 0 (diagonal fun _ : Fin 1 => 1 / Real.sqrt v), ?_, ?_⟩
  · refine symp_diag _ _ ?_
    rw [diagonal_transpose, diagonal_mul_diagonal, ← diagonal_one]
    congr 1; funext i
    field_simp
  · rw [sqCov_phase, fromBlocks_diagonal, diagonal_transpose, diagonal_mul_diagonal, diagonal_mul_diagonal]
    congr 1
    funext p
    rcases p with p | p
    · simp [Real.mul_self_sqrt hv.le]
    · simp [← mul_inv, Real.mul_self_sqrt hv.le]

/-- the entries of the A matrix of a squeezed vacuum -/
theorem sqCov_A {v : ℝ} (hv : 0 < v) (hv1 : v ≠ 1) {A : ℕ → ℕ → ℂ} (hA : Amat 1 (sqCov v) 2 = .ok A) : A 0 0 = (((v - 1) / (v + 1) : ℝ) : ℂ) := by
  obtain ⟨hph, hdet⟩ := sqCov_physical hv
  have hsym := physical_sym hph
  have hQdet : (phase 1 1 (Qmat 1 (sqCov v) 2)).det ≠ 0 := by rw [det_Q hsym (by norm_num), Complex.ofReal_ne_zero]; exact (det_W_pos hph (by norm_num)).ne'
  obtain ⟨A', hA', -, hAc, hAX, -⟩ := Amat_correct 1 (sqCov v) 2 hsym hQdet
  obtain rfl : A' = A := Except.ok.inj (hA'.symm.trans hA)
  have h0 := pure_block hph (by norm_num) hdet A' hAX 0 (by norm_num) 0 (by norm_num)
  have h1 : phase 1 1 A' * phase 1 1 (Xmat 1) * phase 1 1 (Qmat 1 (sqCov v) 2) = phase 1 1 (Qmat 1 (sqCov v) 2) - 1 := by
    rw [hAX, Matrix.sub_mul, Matrix.one_mul, nonsing_inv_mul _ (isUnit_iff_ne_zero.mpr hQdet)]
  have h2 := congrFun (congrFun h1 (.inl 0)) (.inl 0)
  simp only [Matrix.mul_apply, Fintype.sum_sum_type, Finset.univ_unique, Fin.default_eq_zero, Finset.sum_singleton, Matrix.sub_apply, Matrix.one_apply_eq, phase, quad] at h2
  simp only [Matrix.of_apply, Sum.elim_inl, Sum.elim_inr, Fin.val_zero, Nat.add_zero] at h2
  have q1 := Qmat_xx_mk 1 (sqCov v) 2 0 0 (by norm_num) (by norm_num)
  have q2 := Qmat_px_mk 1 (sqCov v) 2 0 0 (by norm_num) (by norm_num)
  simp only [Nat.add_zero] at q1 q2
  have e01 := h0.1
  simp only [Nat.add_zero] at e01
  have x1 : (Xmat 1 1 0 : ℂ) = 1 := by simp [Xmat, block, eye]
  have x2 : (Xmat 1 0 1 : ℂ) = 1 := by simp [Xmat, block, eye]
  have x3 : (Xmat 1 0 0 : ℂ) = 0 := by simp [Xmat, block, eye]
  have x4 : (Xmat 1 1 1 : ℂ) = 0 := by simp [Xmat, block, eye]
  rw [q1, q2, e01, x1, x2, x3, x4] at h2
  have e1 : ({re := (sqCov v 0 0 + sqCov v 1 1) / (2 * 2) + (if True then 1 / 2 else 0), im := (sqCov v 0 1 - sqCov v 0 1) / (2 * 2)} : ℂ) = (((v + 1 / v) / 4 + 1 / 2 : ℝ) : ℂ) := by
    apply Complex.ext <;> simp [sqCov] <;> norm_num
  have e2 : ({re := (sqCov v 0 0 - sqCov v 1 1) / (2 * 2), im := (sqCov v 0 1 + sqCov v 0 1) / (2 * 2)} : ℂ) = (((v - 1 / v) / 4 : ℝ) : ℂ) := by
    apply Complex.ext <;> simp [sqCov] <;> norm_num
  rw [e1, e2] at h2
  have hne : ((v - 1 / v) / 4 : ℝ) ≠ 0 := by
    have : (v - 1 / v) / 4 = (v - 1) * (v + 1) / (4 * v) := by field_simp; ring
    rw [this]
    have h3 : v - 1 ≠ 0 := sub_ne_zero.mpr hv1
    positivity
  have h3 : A' 0 0 * (((v - 1 / v) / 4 : ℝ) : ℂ) = (((v + 1 / v) / 4 + 1 / 2 - 1 : ℝ) : ℂ) := by
    push_cast at h2 ⊢
    linear_combination h2
  have h4 : (((v + 1 / v) / 4 + 1 / 2 - 1 : ℝ) : ℂ) = (((v - 1) / (v + 1) : ℝ) : ℂ) * (((v - 1 / v) / 4 : ℝ) : ℂ) := by
    rw [← Complex.ofReal_mul]
    congr 1
    field_simp
    ring
  rw [h4] at h3
  exact mul_right_cancel₀ (Complex.ofReal_ne_zero.mpr hne) h3

/-- `Σ_o |He_o|² / o!` for the loop hafnian polynomials with loops `γ` and edges `-1/4` -/
theorem herm_sq (γ : ℂ) (g : ℕ → ℂ) (hg : g 0 = γ) (B : ℕ → ℕ → ℂ) (hB : B 0 0 = -(1 / 4)) :
    HasSum (fun o : ℕ => Complex.normSq (lh g B (List.replicate o 0)) / o.factorial) (Real.exp (4 * γ.re ^ 2 / 5 + 4 * γ.im ^ 2 / 3) * Real.sqrt (16 / 15)) := by
  obtain ⟨hph, hdet⟩ := sqCov_physical (v := 3 / 5) (by norm_num)
  set mu : ℕ → ℝ := fun i => if i = 0 then 2 * (4 / 5 * γ.re) else 2 * (-(4 / 3) * γ.im) with hmu
  obtain ⟨A, γ', hA, hAs, hγ, -, hρ⟩ := pure_setup mu (by norm_num : (0 : ℝ) < 2) hph hdet
  have hA0 := sqCov_A (by norm_num) (by norm_num) hA
  have hA0' : A 0 0 = -(1 / 4) := by rw [hA0]; norm_num
  have hβ : complexToReal 1 mu 2 0 = ⟨4 / 5 * γ.re, -(4 / 3) * γ.im⟩ := by
    rw [(complexToReal_entries 1 mu 2 0 (by norm_num)).1, show (2 : ℝ) * 2 = 2 ^ 2 by norm_num, Real.sqrt_sq (by norm_num)]
    apply Complex.ext <;> simp [Spec.amp, hmu] <;> ring
  have hγ0 : γ' 0 = γ := by
    rw [hγ 0 (by norm_num), dot_sum, Finset.sum_range_one, hA0', hβ]
    apply Complex.ext <;> simp <;> ring
  have htr := Complex.hasSum_re (fockMatrix_trace (by norm_num) hph hρ)
  have hd : (Wmat 1 (sqCov (3 / 5)) 2).det = 16 / 15 := by
    unfold Wmat
    rw [sqCov_phase, ← diagonal_one, ← diagonal_smul, diagonal_add, ← diagonal_smul, det_diagonal, Fintype.prod_sum_type]
    simp
    norm_num
  have hE : Complex.normSq (Complex.exp ((starRingEnd ℂ) (pureExp 1 mu 2 A))) = Real.exp (-(4 * γ.re ^ 2 / 5 + 4 * γ.im ^ 2 / 3)) := by
    rw [Complex.normSq_eq_norm_sq, Complex.norm_exp, ← Real.exp_nat_mul]
    congr 1
    unfold pureExp
    have hn : norm2 1 (complexToReal 1 mu 2) ^ 2 = (4 / 5 * γ.re) ^ 2 + (4 / 3 * γ.im) ^ 2 := by
      rw [norm2_sq]
      simp only [Finset.univ_unique, Fin.default_eq_zero, Finset.sum_singleton, Finset.sum_range_one, Fin.val_zero, Complex.sq_norm, Complex.normSq_apply, hβ]
      ring
    rw [hn]
    simp only [dot_sum, Finset.sum_range_one, hβ, hA0']
    simp [← Complex.ofReal_pow]
    ring
  have hlh : ∀ o : ℕ, lh γ' A (List.replicate o 0) = lh g B (List.replicate o 0) := by
    intro o
    refine lh_congr (fun i hi => ?_) fun i hi j hj => ?_
    · rw [List.eq_of_mem_replicate hi, hγ0, hg]
    · rw [List.eq_of_mem_replicate hi, List.eq_of_mem_replicate hj, hA0', hB]
  have hterm : ∀ o : ℕ, (psiFn 1 mu (sqCov (3 / 5)) 2 A γ' (fun _ => o) * (starRingEnd ℂ) (psiFn 1 mu (sqCov (3 / 5)) 2 A γ' fun _ => o)).re =
      Real.exp (-(4 * γ.re ^ 2 / 5 + 4 * γ.im ^ 2 / 3)) / Real.sqrt (16 / 15) * (Complex.normSq (lh g B (List.replicate o 0)) / o.factorial) := by
    intro o
    rw [Complex.mul_conj, Complex.ofReal_re]
    unfold psiFn
    rw [Complex.normSq_div, Complex.normSq_mul, hE, Complex.normSq_conj, Complex.normSq_ofReal, hd]
    have h1 : repeatedIndices (List.ofFn fun _ : Fin 1 => o) = List.replicate o 0 := by simp [repeatedIndices]
    rw [h1, hlh, Finset.univ_unique, Finset.prod_singleton, mul_mul_mul_comm, Real.mul_self_sqrt (by positivity), Real.mul_self_sqrt (by positivity)]
    field_simp
  have h2 := (Equiv.hasSum_iff (Equiv.funUnique (Fin 1) ℕ).symm).mpr htr
  have h3 : HasSum (fun o : ℕ => Real.exp (-(4 * γ.re ^ 2 / 5 + 4 * γ.im ^ 2 / 3)) / Real.sqrt (16 / 15) * (Complex.normSq (lh g B (List.replicate o 0)) / o.factorial)) 1 := by
    have h4 := h2.congr_fun (g := fun o : ℕ => Real.exp (-(4 * γ.re ^ 2 / 5 + 4 * γ.im ^ 2 / 3)) / Real.sqrt (16 / 15) * (Complex.normSq (lh g B (List.replicate o 0)) / o.factorial)) ?_
    · simpa using h4
    · intro o
      exact (hterm o).symm
  have h4 := h3.mul_left (Real.exp (4 * γ.re ^ 2 / 5 + 4 * γ.im ^ 2 / 3) * Real.sqrt (16 / 15))
  rw [mul_one] at h4
  refine h4.congr_fun fun o => ?_
  have h5 := Real.exp_pos (4 * γ.re ^ 2 / 5 + 4 * γ.im ^ 2 / 3)
  have h6 : 0 < Real.sqrt (16 / 15) := Real.sqrt_pos.mpr (by norm_num)
  rw [Real.exp_neg]
  generalize Real.exp (4 * γ.re ^ 2 / 5 + 4 * γ.im ^ 2 / 3) = x at *
  generalize Real.sqrt (16 / 15) = y at *
  field_simp

/-- a pure state with a covariance matrix below the one of a squeezed vacuum is the squeezed vacuum -/
theorem sq_minimal {v : ℝ} (hv : 0 < v) {T W : RArr} (hT : Physical (phase 1 1 T) 2) (hdet : (phase 1 1 T).det = 1)
    (hW : phase 1 1 W * (phase 1 1 W)ᵀ = phase 1 1 (sqCov v) - phase 1 1 T) : (∀ i < 2, ∀ j < 2, T i j = sqCov v i j) ∧ ∀ i < 2, ∀ j < 2, W i j = 0 := by
  have hp := physical_posDef _ 2 (by norm_num) hT
  have hsym := physical_sym hT
  have ha : 0 < T 0 0 := hp.diag_pos (i := .inl 0)
  have hd : 0 < T 1 1 := hp.diag_pos (i := .inr 0)
  have hb : T 0 1 = T 1 0 := hsym 0 (by norm_num) 1 (by norm_num)
  rw [phase_det] at hdet
  have hdet' : T 0 0 * T 1 1 - T 0 1 * T 1 0 = 1 := (Matrix.det_fin_two (toMatrix 2 2 T)).symm.trans hdet
  have h1 := congrFun (congrFun hW (.inl 0)) (.inl 0)
  have h2 := congrFun (congrFun hW (.inr 0)) (.inr 0)
  simp only [Matrix.mul_apply, Fintype.sum_sum_type, Finset.univ_unique, Fin.default_eq_zero, Finset.sum_singleton, Matrix.sub_apply, phase, transpose_apply, Matrix.of_apply, quad,
    Sum.elim_inl, Sum.elim_inr, Fin.val_zero, Nat.add_zero] at h1 h2
  have s0 : sqCov v 0 0 = v := by simp [sqCov]
  have s1 : sqCov v 1 1 = 1 / v := by simp [sqCov]
  rw [s0] at h1
  rw [s1] at h2
  have h3 : T 0 0 ≤ v := by nlinarith [mul_self_nonneg (W 0 0), mul_self_nonneg (W 0 1)]
  have h4 : T 1 1 ≤ 1 / v := by nlinarith [mul_self_nonneg (W 1 0), mul_self_nonneg (W 1 1)]
  have h5 : T 0 0 * T 1 1 ≤ 1 := by
    have := mul_le_mul h3 h4 hd.le hv.le
    rwa [mul_one_div_cancel hv.ne'] at this
  have h6 : T 0 1 = 0 := by
    have : T 0 1 * T 0 1 ≤ 0 := by rw [← hb] at hdet'; linarith
    exact mul_self_eq_zero.mp (le_antisymm this (mul_self_nonneg _))
  have h7 : T 0 0 * T 1 1 = 1 := by rw [h6] at hdet'; linarith
  have h8 : T 0 0 = v := by
    refine le_antisymm h3 ?_
    have h9 : T 0 0 * T 1 1 ≤ T 0 0 * (1 / v) := mul_le_mul_of_nonneg_left h4 ha.le
    rw [h7, mul_one_div, le_div_iff₀ hv, one_mul] at h9
    exact h9
  have h9 : T 1 1 = 1 / v := by
    rw [h8] at h7
    field_simp
    linarith
  constructor
  · intro i hi j hj
    interval_cases i <;> interval_cases j
    · rw [h8, s0]
    · rw [h6]; simp [sqCov]
    · rw [← hb, h6]; simp [sqCov]
    · rw [h9, s1]
  · rw [h8] at h1
    rw [h9] at h2
    have w00 : W 0 0 = 0 := mul_self_eq_zero.mp (le_antisymm (by nlinarith [mul_self_nonneg (W 0 1)]) (mul_self_nonneg _))
    have w01 : W 0 1 = 0 := mul_self_eq_zero.mp (le_antisymm (by nlinarith [mul_self_nonneg (W 0 0)]) (mul_self_nonneg _))
    have w10 : W 1 0 = 0 := mul_self_eq_zero.mp (le_antisymm (by nlinarith [mul_self_nonneg (W 1 1)]) (mul_self_nonneg _))
    have w11 : W 1 1 = 0 := mul_self_eq_zero.mp (le_antisymm (by nlinarith [mul_self_nonneg (W 1 0)]) (mul_self_nonneg _))
    intro i hi j hj
    interval_cases i <;> interval_cases j <;> assumption

/-! #### The run of the sampler for one mode and two channels -/

/-- drawing the first of `c + 1` outcomes with weights `1, f 1, …, f c` -/
theorem choose_zero (lib : Lib) (htol : 0 ≤ lib.tol) (c : ℕ) (f : ℕ → ℝ) (h0 : f 0 = 1) (hf : ∀ i, 0 ≤ f i) (k : ℕ) (hu : 0 ≤ lib.uniform k) (hu1 : lib.uniform k < 1) :
    ∃ o, chooseNormalised lib c ((List.range (c + 1)).map f) k = .ok (o, k + 1) ∧ (o = 0 ↔ lib.uniform k < 1 / ∑ i ∈ Finset.range (c + 1), f i) := by
  have hS : 0 < ∑ i ∈ Finset.range (c + 1), f i := Finset.sum_pos' (fun i _ => hf i) ⟨0, by simp, by rw [h0]; norm_num⟩
  set S := ∑ i ∈ Finset.range (c + 1), f i with hSdef
  have hsum : ((List.range (c + 1)).map f).sum = S := map_range_sum f _
  have hps : (((List.range (c + 1)).map f).map fun x => x / S).sum = 1 := by
    rw [List.map_map]
    have := map_range_sum ((fun x => x / S) ∘ f) (c + 1)
    rw [this]
    simp only [Function.comp]
    rw [← Finset.sum_div, div_self hS.ne']
  have hnn : ∀ x ∈ (((List.range (c + 1)).map f).map fun x => x / S), 0 ≤ x := by
    intro x hx
    obtain ⟨y, hy, rfl⟩ := List.mem_map.mp hx
    obtain ⟨i, -, rfl⟩ := List.mem_map.mp hy
    exact div_nonneg (hf i) hS.le
  refine ⟨searchRight (cdf (((List.range (c + 1)).map f).map fun x => x / S)) (lib.uniform k), ?_, ?_⟩
  · unfold chooseNormalised
    rw [hsum, if_neg hS.ne']
    unfold choice
    rw [if_neg]
    rintro (h | h | ⟨x, hx, h⟩ | h)
    · omega
    · simp at h
    · exact absurd (hnn x hx) (by linarith)
    · rw [hps] at h
      simp at h
      linarith
  · rw [searchRight_iff _ hnn (by rw [hps]; norm_num) _ hu hu1]
    unfold cum
    rw [hps, List.range_succ_eq_map]
    simp [h0, hu]

theorem fan_two {M : ℕ} (lib : Lib) (ρ : (Fin M → Fin 2 → ℕ) → (Fin M → Fin 2 → ℕ) → ℂ) (α : ℕ → ℕ → ℂ) (c maxPhotons k o1 o2 : ℕ)
    (h1 : chooseNormalised lib c ((List.range (c + 1)).map fun o => channelDensity ρ (Function.update (fun _ => 0) 0 (0 + 1)) (Function.update (fun _ _ => 0) 0 (Function.update (fun _ => 0) 0 o)) α) k = .ok (o1, k + 1))
    (h2 : o1 = 0 → chooseNormalised lib c ((List.range (c + 1)).map fun o => channelDensity ρ (Function.update (Function.update (fun _ => 0) 0 (0 + 1)) 0 (1 + 1))
      (Function.update (Function.update (fun _ _ => 0) 0 (Function.update (fun _ => 0) 0 0)) 0 (Function.update (Function.update (fun _ _ => 0) 0 (Function.update (fun _ => 0) 0 0) 0) 1 o)) α) (k + 1) = .ok (o2, k + 2)) :
    (∃ t k', (List.range 1).foldlM (bornMode (F := 2) lib ρ α c maxPhotons [0]) (some ((fun _ => 0, fun _ _ => 0), fun _ => 0)) k = .ok (some t, k') ∧ [0].map t.2 = [0]) ↔ o1 = 0 ∧ o2 = 0 := by
  have hr : List.range 1 = [0] := rfl
  have hr2 : List.range 2 = [0, 1] := rfl
  have hch : ∃ st k', bornChannels lib ρ α c 0 (List.range 2) (fun _ => 0, fun _ _ => 0) k = .ok ((st, if o1 = 0 ∧ o2 = 0 then 0 else 1), k') := by
    rw [hr2]
    unfold bornChannels
    change ∃ st k', (chooseNormalised lib c _ k).bind (fun x => _) = _
    rw [h1]
    change ∃ st k', (if o1 > 0 then _ else _ : Rand _) (k + 1) = _
    by_cases h0 : o1 = 0
    · rw [if_neg (by omega)]
      subst h0
      unfold bornChannels
      change ∃ st k', (chooseNormalised lib c _ (k + 1)).bind (fun x => _) = _
      rw [h2 rfl]
      change ∃ st k', (if o2 > 0 then _ else _ : Rand _) (k + 2) = _
      by_cases h0 : o2 = 0
      · rw [if_neg (by omega), if_pos ⟨rfl, h0⟩]
        exact ⟨_, _, rfl⟩
      · rw [if_pos (by omega), if_neg (fun h => h0 h.2)]
        exact ⟨_, _, rfl⟩
    · rw [if_pos (by omega), if_neg (fun h => h0 h.1)]
      exact ⟨_, _, rfl⟩
  obtain ⟨st, k', hch⟩ := hch
  rw [hr, List.foldlM_cons]
  simp only [List.foldlM_nil, bind_pure]
  unfold bornMode
  dsimp only
  change (∃ t k', (bornChannels lib ρ α c 0 (List.range 2) (fun _ => 0, fun _ _ => 0) k).bind (fun x => _) = _ ∧ _) ↔ _
  rw [hch]
  change (∃ t k'', (if ([0].map (if (if o1 = 0 ∧ o2 = 0 then 0 else 1) = 1 then Function.update (fun _ => 0) 0 1 else fun _ => 0)).sum > maxPhotons then (pure none : Rand _) else
    pure (some (st, if (if o1 = 0 ∧ o2 = 0 then 0 else 1) = 1 then Function.update (fun _ => 0) 0 1 else fun _ => 0))) k' = .ok (some t, k'') ∧ _) ↔ _
  by_cases h : o1 = 0 ∧ o2 = 0
  · rw [if_pos h, if_neg (by norm_num), if_neg (by simp)]
    exact ⟨fun _ => h, fun _ => ⟨_, _, rfl, rfl⟩⟩
  · rw [if_neg h, if_pos rfl]
    refine ⟨?_, fun h' => absurd h' h⟩
    rintro ⟨t, k'', h3, h4⟩
    split at h3
    · simp [pure, StateT.pure, Except.pure] at h3
    · simp only [pure, StateT.pure, Except.pure, Except.ok.injEq, Prod.mk.injEq, Option.some.injEq] at h3
      rw [← h3.1] at h4
      simp at h4

/-- `Σ_{o ≤ c} |He_o|² / o!`, the normalisation of the probabilities of a channel -/
noncomputable def hermNorm (c : ℕ) (γ : ℂ) : ℝ := ∑ o ∈ Finset.range (c + 1), Complex.normSq (lh (fun _ => γ) (fun _ _ => -(1 / 4)) (List.replicate o 0)) / o.factorial

theorem hermNorm_ge (c : ℕ) (γ : ℂ) : 1 ≤ hermNorm c γ := by
  unfold hermNorm
  have h := Finset.single_le_sum (f := fun o : ℕ => Complex.normSq (lh (fun _ => γ) (fun _ _ => -(1 / 4)) (List.replicate o 0)) / o.factorial)
    (fun o _ => div_nonneg (Complex.normSq_nonneg _) (by positivity)) (Finset.mem_range.mpr (Nat.succ_pos c))
  simpa [lh_nil] using h

/-- the draw for a channel, when no photon was found before -/
theorem channel_zero (lib : Lib) (htol : 0 ≤ lib.tol) (A : CArr) (hA0 : A 0 0 = -(1 / 2)) (γ : ℕ → ℂ) (hγ : γ 0 = 0) (e : ℂ) (he : e ≠ 0) (ψ : (Fin 1 → ℕ) → ℂ)
    (hψ : ∀ a, ψ a = e * ((starRingEnd ℂ) (lh γ A (repeatedIndices (List.ofFn a))) / (Real.sqrt (∏ i, ((a i).factorial : ℝ)) : ℝ)))
    (α : ℕ → ℕ → ℂ) (cutoff k : ℕ) (hk : k < 2) (cnt : ℕ → ℕ) (n : ℕ → ℕ → ℕ) (hcnt : ∀ j, cnt j ≤ 2) (hlate : ∀ j, 0 < j → cnt j = 0) (hz : ∀ k' < k, n 0 k' = 0)
    (κ : ℕ) (hu : 0 ≤ lib.uniform κ) (hu1 : lib.uniform κ < 1) :
    ∃ o, chooseNormalised lib cutoff ((List.range (cutoff + 1)).map fun o =>
      channelDensity (F := 2) (splitState 2 fun i j => ψ i * (starRingEnd ℂ) (ψ j)) (Function.update cnt 0 (k + 1)) (Function.update n 0 (Function.update (n 0) k o)) α) κ = .ok (o, κ + 1) ∧
      (o = 0 ↔ lib.uniform κ < 1 / hermNorm cutoff (-(1 / 4) * ∑ k ∈ Finset.Ico (k + 1) 2, α 0 k)) := by
  rw [channel_draw lib A γ (fun i hi j hj => by interval_cases i; interval_cases j; rfl) (by norm_num) e he ψ hψ α cutoff cnt n 0 k (by norm_num) hk hcnt hlate hz
    (fanGamma A γ 1 2 (Function.update cnt 0 (k + 1)) α) fun i _ => rfl]
  have hg : fanGamma A γ 1 2 (Function.update cnt 0 (k + 1)) α 0 = -(1 / 4) * ∑ k ∈ Finset.Ico (k + 1) 2, α 0 k := by
    unfold fanGamma
    rw [hγ, zero_div, zero_add, Finset.sum_range_one, Function.update_self, hA0]
    push_cast
    ring
  have hw : weights cutoff ((List.range (cutoff + 1)).map fun o => lh (fanGamma A γ 1 2 (Function.update cnt 0 (k + 1)) α) (fun i j => A i j / ((2 : ℕ) : ℂ))
      (repeatedIndices ((List.range 0).map (fun j => ∑ k ∈ Finset.range (cnt j), n j k) ++ [o]))) =
      (List.range (cutoff + 1)).map fun o : ℕ => Complex.normSq (lh (fun _ => -(1 / 4) * ∑ k ∈ Finset.Ico (k + 1) 2, α 0 k) (fun _ _ => -(1 / 4)) (List.replicate o 0)) / o.factorial := by
    unfold weights
    refine List.map_congr_left fun o ho => ?_
    have ho' := List.mem_range.mp ho
    rw [List.getD_eq_getElem _ _ (by simpa using ho'), List.getElem_map, List.getElem_range]
    have h1 : repeatedIndices ((List.range 0).map (fun j => ∑ k ∈ Finset.range (cnt j), n j k) ++ [o]) = List.replicate o 0 := by simp [repeatedIndices]
    rw [h1]
    congr 2
    refine lh_congr (fun i hi => ?_) fun i hi j hj => ?_
    · rw [List.eq_of_mem_replicate hi, hg]
    · rw [List.eq_of_mem_replicate hi, List.eq_of_mem_replicate hj, hA0]
      norm_num
  rw [hw]
  exact choose_zero lib htol cutoff _ (by simp [lh_nil]) (fun o => div_nonneg (Complex.normSq_nonneg _) (by positivity)) κ hu hu1

/-- the random numbers in the order in which `generate_torontonian_sample` asks for them, for one mode and two channels -/
noncomputable def withFanDraws (lib : Lib) (z : Fin 6 → ℝ) (u : Fin 2 → ℝ) : Lib :=
  { lib with normal := fun k i => if k < 2 then (if i < 2 then seq z (2 * k + i) else 0) else if i = 0 then seq z (k + 2) else 0, uniform := fun k => seq u (k - 4) }

/-- the parameter of the first channel -/
noncomputable def fanLoop (C : RArr) (z : Fin 6 → ℝ) : ℂ :=
  -(1 / 4) * ((⟨(C 0 0 * z 2 + C 0 1 * z 3) / 2 - z 4, (C 1 0 * z 2 + C 1 1 * z 3) / 2 - z 5⟩ : ℂ) / (Real.sqrt 2 : ℝ))

theorem channelRows_two (lib : Lib) (a : ℕ → ℂ) : channelRows lib 1 2 a 2 = .ok (Function.update (fun _ _ => 0) 0 (channelRow 2 (a 0) (lib.normal 2) (lib.normal 3)), 4) := rfl

theorem sq_run (lib : Lib) (htol : 0 ≤ lib.tol) (T W C : RArr) (hT : ∀ i < 2, ∀ j < 2, T i j = sqCov (1 / 3) i j) (hW : ∀ i < 2, ∀ j < 2, W i j = 0) (mu : ℕ → ℝ) (hmu : ∀ i < 2, mu i = 0)
    (ρ : (ℕ → ℝ) → (Fin 1 → ℕ) → (Fin 1 → ℕ) → ℂ) (hρ : ∀ mu, IsFockMatrix 1 mu T 2 (ρ mu)) (cutoff maxPhotons : ℕ) (z : Fin 6 → ℝ) (u : Fin 2 → ℝ) (hu : ∀ k, u k ∈ Set.Ico (0 : ℝ) 1) :
    (∃ k, bornFanout (withFanDraws lib z u) mu W C ρ [0] 2 cutoff maxPhotons 0 = .ok (some [0], k)) ↔
      u 0 < 1 / hermNorm cutoff (fanLoop C z) ∧ u 1 < 1 / hermNorm cutoff 0 := by
  have hTp : phase 1 1 T = phase 1 1 (sqCov (1 / 3)) := by
    ext p q
    exact hT _ (by have := quad_lt 1 p; omega) _ (by have := quad_lt 1 q; omega)
  obtain ⟨hph, hdet⟩ := sqCov_physical (v := 1 / 3) (by norm_num)
  rw [bornFanout_run, channelRows_two, show ∀ {α β : Type} (x : α) (f : α → Except PyErr β), (Except.ok x : Except PyErr α).bind f = f x from fun _ _ => rfl]
  dsimp only
  rw [bind_map_iff]
  set mean := meanAt 1 mu W ((withFanDraws lib z u).normal 0) with hmean
  have hm0 : ∀ i < 2, mean i = 0 := by
    intro i hi
    rw [hmean]
    unfold meanAt
    rw [hmu i hi, zero_add]
    refine Finset.sum_eq_zero fun j hj => ?_
    rw [hW i hi j (by simpa using Finset.mem_range.mp hj), zero_mul]
  obtain ⟨A, γ, hA, hAs, hγ, hγ0, hF⟩ := pure_setup mean (by norm_num : (0 : ℝ) < 2) hph hdet
  have hA0 : A 0 0 = -(1 / 2) := by rw [sqCov_A (by norm_num) (by norm_num) hA]; norm_num
  have hF' : IsFockMatrix 1 mean T 2 fun i j => psiFn 1 mean (sqCov (1 / 3)) 2 A γ i * (starRingEnd ℂ) (psiFn 1 mean (sqCov (1 / 3)) 2 A γ j) := by
    rw [isFock_iff, hTp, ← isFock_iff]
    exact hF
  rw [fockMatrix_unique (hρ mean) hF']
  set α : ℕ → ℕ → ℂ := Function.update (fun _ _ => 0) 0 (channelRow 2 (hetAt 1 mean C ((withFanDraws lib z u).normal 1) 0) ((withFanDraws lib z u).normal 2) ((withFanDraws lib z u).normal 3)) with hα
  have hu4 : (withFanDraws lib z u).uniform 4 = u 0 := by simp [withFanDraws, seq]
  have hu5 : (withFanDraws lib z u).uniform 5 = u 1 := by simp [withFanDraws, seq]
  have he : Complex.exp ((starRingEnd ℂ) (pureExp 1 mean 2 A)) / ((Real.sqrt (Real.sqrt (Wmat 1 (sqCov (1 / 3)) 2).det) : ℝ) : ℂ) ≠ 0 := by
    refine div_ne_zero (Complex.exp_ne_zero _) ?_
    rw [Complex.ofReal_ne_zero]
    exact (Real.sqrt_pos.mpr (Real.sqrt_pos.mpr (det_W_pos hph (by norm_num)))).ne'
  have hψ : ∀ a, psiFn 1 mean (sqCov (1 / 3)) 2 A γ a = Complex.exp ((starRingEnd ℂ) (pureExp 1 mean 2 A)) / ((Real.sqrt (Real.sqrt (Wmat 1 (sqCov (1 / 3)) 2).det) : ℝ) : ℂ) *
      ((starRingEnd ℂ) (lh γ A (repeatedIndices (List.ofFn a))) / (Real.sqrt (∏ i, ((a i).factorial : ℝ)) : ℝ)) := by
    intro a
    unfold psiFn
    push_cast
    rw [div_mul_div_comm]
  obtain ⟨o1, h1, h1'⟩ := channel_zero (withFanDraws lib z u) htol A hA0 γ (hγ0 0 (by norm_num) hm0) _ he _ hψ α cutoff 0 (by norm_num) (fun _ => 0) (fun _ _ => 0) (fun _ => by norm_num) (fun _ _ => rfl)
    (fun _ _ => rfl) 4 (by rw [hu4]; exact (hu 0).1) (by rw [hu4]; exact (hu 0).2)
  obtain ⟨o2, h2, h2'⟩ := channel_zero (withFanDraws lib z u) htol A hA0 γ (hγ0 0 (by norm_num) hm0) _ he _ hψ α cutoff 1 (by norm_num) (Function.update (fun _ => 0) 0 (0 + 1))
    (Function.update (fun _ _ => 0) 0 (Function.update (fun _ => 0) 0 0)) (fun j => by by_cases h : j = 0 <;> simp [h]) (fun j hj => by rw [Function.update_of_ne (by omega)])
    (fun k' hk' => by interval_cases k'; simp) 5 (by rw [hu5]; exact (hu 1).1) (by rw [hu5]; exact (hu 1).2)
  rw [fan_two (withFanDraws lib z u) _ α cutoff maxPhotons 4 o1 o2 h1 fun _ => h2, h1', h2', hu4, hu5]
  have hα1 : -(1 / 4) * ∑ k ∈ Finset.Ico (0 + 1) 2, α 0 k = fanLoop C z := by
    rw [zero_add, Nat.Ico_succ_singleton, Finset.sum_singleton, hα, Function.update_self]
    unfold channelRow fanLoop
    have hexp : Complex.exp (-2 * Real.pi * Complex.I * ((1 : ℕ) : ℂ) * ((0 + 1 : ℕ) : ℂ) / ((2 : ℕ) : ℂ)) = -1 := by
      have : (-2 * Real.pi * Complex.I * ((1 : ℕ) : ℂ) * ((0 + 1 : ℕ) : ℂ) / ((2 : ℕ) : ℂ) : ℂ) = -(Real.pi * Complex.I) := by push_cast; ring
      rw [this, Complex.exp_neg, Complex.exp_pi_mul_I]
      norm_num
    have hp : (withFanDraws lib z u).normal 2 0 = z 4 := by simp [withFanDraws, seq]
    have hq : (withFanDraws lib z u).normal 3 0 = z 5 := by simp [withFanDraws, seq]
    have hy0 : (withFanDraws lib z u).normal 1 0 = z 2 := by simp [withFanDraws, seq]
    have hy1 : (withFanDraws lib z u).normal 1 1 = z 3 := by simp [withFanDraws, seq]
    have ha : hetAt 1 mean C ((withFanDraws lib z u).normal 1) 0 = ⟨(C 0 0 * z 2 + C 0 1 * z 3) / 2, (C 1 0 * z 2 + C 1 1 * z 3) / 2⟩ := by
      unfold hetAt Spec.amp
      simp only [Nat.mul_one, Finset.sum_range_succ, Finset.sum_range_zero, zero_add, hm0 0 (by norm_num), Nat.add_zero, hm0 1 (by norm_num), hy0, hy1]
      apply Complex.ext <;> simp
    rw [show (2 : ℕ) - 1 = 1 from rfl, Finset.sum_range_one, hexp, ha, hp, hq]
    congr 2
    apply Complex.ext <;> simp <;> ring
  rw [hα1]
  simp

/-! #### The law -/

/-- the law of the random numbers: independent standard normal and uniform on `[0, 1)` -/
noncomputable def fanLaw : Measure ((Fin 6 → ℝ) × (Fin 2 → ℝ)) := (stdNormal (Fin 6)).prod (Measure.pi fun _ => volume.restrict (Set.Ico 0 1))

instance : IsProbabilityMeasure fanLaw := by
  unfold fanLaw
  infer_instance

/-- the random numbers for which `generate_torontonian_sample` (one mode, ħ = 2, `fanout = 2`) returns "no click" -/
def returnsNoClick (lib : Lib) (s : GState ℝ) (cutoff maxPhotons : ℕ) : Set ((Fin 6 → ℝ) × (Fin 2 → ℝ)) :=
  {ω | ∃ k, generateTorontonianSample (withFanDraws lib ω.1 ω.2) s 2 maxPhotons 2 cutoff 0 = .ok (some [0], k)}

theorem hermNorm_continuous (c : ℕ) {X : Type} [TopologicalSpace X] (f : X → ℂ) (hf : Continuous f) : Continuous fun x => hermNorm c (f x) := by
  unfold hermNorm
  refine continuous_finsetSum _ fun o _ => ?_
  refine Continuous.div_const (Complex.continuous_normSq.comp ?_) _
  exact lh_continuous (fun _ _ => -(1 / 4)) (fun x _ => f x) (fun _ => hf) _ _ le_rfl

theorem fanLoop_continuous (C : RArr) : Continuous (fanLoop C) := by
  have h : fanLoop C = fun z => -(1 / 4) * ((((((C 0 0 * z 2 + C 0 1 * z 3) / 2 - z 4 : ℝ) : ℂ) + (((C 1 0 * z 2 + C 1 1 * z 3) / 2 - z 5 : ℝ) : ℂ) * Complex.I) / (Real.sqrt 2 : ℝ))) := by
    funext z
    unfold fanLoop
    congr 2
    apply Complex.ext <;> simp
  rw [h]
  fun_prop

theorem hermNorm_limit (γ : ℂ) : Filter.Tendsto (fun c => hermNorm c γ) Filter.atTop (nhds (Real.exp (4 * γ.re ^ 2 / 5 + 4 * γ.im ^ 2 / 3) * Real.sqrt (16 / 15))) := by
  have h := (herm_sq γ (fun _ => γ) rfl (fun _ _ => -(1 / 4)) rfl).tendsto_sum_nat
  exact h.comp (Filter.tendsto_add_atTop_nat 1)

theorem fan_prob (C : RArr) (c : ℕ) (E : Set ((Fin 6 → ℝ) × (Fin 2 → ℝ)))
    (hE : ∀ ω : (Fin 6 → ℝ) × (Fin 2 → ℝ), (∀ k, ω.2 k ∈ Set.Ico (0 : ℝ) 1) → (ω ∈ E ↔ ω.2 0 < 1 / hermNorm c (fanLoop C ω.1) ∧ ω.2 1 < 1 / hermNorm c 0)) :
    fanLaw.real E = ∫ z, 1 / hermNorm c (fanLoop C z) * (1 / hermNorm c 0) ∂stdNormal (Fin 6) := by
  have hpos : ∀ γ, 0 < hermNorm c γ := fun γ => lt_of_lt_of_le one_pos (hermNorm_ge c γ)
  set D : Set ((Fin 6 → ℝ) × (Fin 2 → ℝ)) := {ω | ω.2 0 < 1 / hermNorm c (fanLoop C ω.1) ∧ ω.2 1 < 1 / hermNorm c 0} with hD
  have hmeas : Measurable fun z : Fin 6 → ℝ => 1 / hermNorm c (fanLoop C z) := (hermNorm_continuous c _ (fanLoop_continuous C)).measurable.const_div 1
  have hDm : MeasurableSet D := by
    have hD2 : D = {ω | ω.2 0 < 1 / hermNorm c (fanLoop C ω.1)} ∩ {ω | ω.2 1 < 1 / hermNorm c 0} := rfl
    rw [hD2]
    refine MeasurableSet.inter (measurableSet_lt ?_ ?_) (measurableSet_lt ?_ measurable_const)
    · exact (measurable_pi_apply (0 : Fin 2)).comp measurable_snd
    · exact hmeas.comp measurable_fst
    · exact (measurable_pi_apply (1 : Fin 2)).comp measurable_snd
  have hunit : ∀ᵐ ω ∂fanLaw, ∀ k, ω.2 k ∈ Set.Ico (0 : ℝ) 1 := by
    have h1 : MeasurableSet {u : Fin 2 → ℝ | ∀ k, u k ∈ Set.Ico (0 : ℝ) 1} := by
      have : {u : Fin 2 → ℝ | ∀ k, u k ∈ Set.Ico (0 : ℝ) 1} = ⋂ k, (fun u : Fin 2 → ℝ => u k) ⁻¹' Set.Ico (0 : ℝ) 1 := by ext u; simp
      rw [this]
      exact MeasurableSet.iInter fun k => measurable_pi_apply k measurableSet_Ico
    have h2 : {ω : (Fin 6 → ℝ) × (Fin 2 → ℝ) | ∀ k, ω.2 k ∈ Set.Ico (0 : ℝ) 1} = Set.univ ×ˢ {u : Fin 2 → ℝ | ∀ k, u k ∈ Set.Ico (0 : ℝ) 1} := by ext ω; simp
    have h3 : {u : Fin 2 → ℝ | ∀ k, u k ∈ Set.Ico (0 : ℝ) 1} = Set.univ.pi fun _ => Set.Ico (0 : ℝ) 1 := by ext u; simp
    have h4 : fanLaw {ω | ∀ k, ω.2 k ∈ Set.Ico (0 : ℝ) 1} = 1 := by
      unfold fanLaw
      rw [h2, Measure.prod_prod, measure_univ, one_mul, h3, Measure.pi_pi]
      simp
    have h5 : MeasurableSet {ω : (Fin 6 → ℝ) × (Fin 2 → ℝ) | ∀ k, ω.2 k ∈ Set.Ico (0 : ℝ) 1} := h1.preimage measurable_snd
    rw [ae_iff]
    exact (prob_compl_eq_zero_iff h5).mpr h4
  have heq : E =ᵐ[fanLaw] D := by
    filter_upwards [hunit] with ω hω
    exact propext (hE ω hω)
  rw [measureReal_congr heq, measureReal_def]
  have h1 : fanLaw D = ∫⁻ z, ENNReal.ofReal (1 / hermNorm c (fanLoop C z) * (1 / hermNorm c 0)) ∂stdNormal (Fin 6) := by
    unfold fanLaw
    rw [Measure.prod_apply hDm]
    refine lintegral_congr fun z => ?_
    have e : Prod.mk z ⁻¹' D = Set.univ.pi fun k : Fin 2 => Set.Iio (![1 / hermNorm c (fanLoop C z), 1 / hermNorm c 0] k) := by
      ext u
      simp [hD, Fin.forall_fin_two]
    rw [e, Measure.pi_pi, Fin.prod_univ_two]
    have hI : ∀ x : ℝ, 0 < x → x ≤ 1 → (volume.restrict (Set.Ico (0 : ℝ) 1)) (Set.Iio x) = ENNReal.ofReal x := by
      intro x h0 h1
      rw [Measure.restrict_apply measurableSet_Iio]
      have : Set.Iio x ∩ Set.Ico (0 : ℝ) 1 = Set.Ico 0 x := by
        ext y
        constructor
        · rintro ⟨h2, h3⟩; exact ⟨h3.1, h2⟩
        · rintro ⟨h2, h3⟩; exact ⟨h3, h2, lt_of_lt_of_le h3 h1⟩
      rw [this, Real.volume_Ico, sub_zero]
    have hle : ∀ γ, 1 / hermNorm c γ ≤ 1 := fun γ => by
      rw [div_le_one (hpos γ)]
      exact hermNorm_ge c γ
    have hp : ∀ γ, 0 < 1 / hermNorm c γ := fun γ => one_div_pos.mpr (hpos γ)
    simp only [cons_val_zero, cons_val_one]
    rw [hI _ (hp _) (hle _), hI _ (hp _) (hle _), ← ENNReal.ofReal_mul (hp _).le]
  rw [h1, integral_eq_lintegral_of_nonneg_ae]
  · exact Filter.Eventually.of_forall fun z => mul_nonneg (one_div_pos.mpr (hpos _)).le (one_div_pos.mpr (hpos _)).le
  · exact (hmeas.mul_const _).aestronglyMeasurable

theorem fan_limit (C : RArr) (hC : phase 1 1 C * (phase 1 1 C)ᵀ = phase 1 1 (sqCov (1 / 3)) + 1) :
    Filter.Tendsto (fun c => ∫ z, 1 / hermNorm c (fanLoop C z) * (1 / hermNorm c 0) ∂stdNormal (Fin 6)) Filter.atTop (nhds (15 / 16 * Real.sqrt (45 / 56))) := by
  have hpos : ∀ c γ, 0 < hermNorm c γ := fun c γ => lt_of_lt_of_le one_pos (hermNorm_ge c γ)
  have hle : ∀ c γ, 1 / hermNorm c γ ≤ 1 := fun c γ => by
    rw [div_le_one (hpos c γ)]
    exact hermNorm_ge c γ
  have hsq : Real.sqrt (16 / 15) * Real.sqrt (16 / 15) = 16 / 15 := Real.mul_self_sqrt (by norm_num)
  have hsp : 0 < Real.sqrt (16 / 15) := Real.sqrt_pos.mpr (by norm_num)
  have hlim : Filter.Tendsto (fun c => ∫ z, 1 / hermNorm c (fanLoop C z) * (1 / hermNorm c 0) ∂stdNormal (Fin 6)) Filter.atTop
      (nhds (∫ z, 15 / 16 * Real.exp (-(4 * (fanLoop C z).re ^ 2 / 5 + 4 * (fanLoop C z).im ^ 2 / 3)) ∂stdNormal (Fin 6))) := by
    refine tendsto_integral_of_dominated_convergence (fun _ => 1) (fun c => ?_) (integrable_const _) (fun c => ?_) ?_
    · exact (((hermNorm_continuous c _ (fanLoop_continuous C)).measurable.const_div 1).mul_const _).aestronglyMeasurable
    · refine Filter.Eventually.of_forall fun z => ?_
      rw [Real.norm_eq_abs, abs_of_nonneg (mul_nonneg (one_div_pos.mpr (hpos _ _)).le (one_div_pos.mpr (hpos _ _)).le)]
      exact mul_le_one₀ (hle _ _) (one_div_pos.mpr (hpos _ _)).le (hle _ _)
    · refine Filter.Eventually.of_forall fun z => ?_
      have h1 := hermNorm_limit (fanLoop C z)
      have h2 := hermNorm_limit 0
      have h3 := ((tendsto_const_nhds (x := (1 : ℝ))).div h1 (by positivity)).mul ((tendsto_const_nhds (x := (1 : ℝ))).div h2 (by positivity))
      have e : 1 / (Real.exp (4 * (fanLoop C z).re ^ 2 / 5 + 4 * (fanLoop C z).im ^ 2 / 3) * Real.sqrt (16 / 15)) *
          (1 / (Real.exp (4 * (0 : ℂ).re ^ 2 / 5 + 4 * (0 : ℂ).im ^ 2 / 3) * Real.sqrt (16 / 15))) =
          15 / 16 * Real.exp (-(4 * (fanLoop C z).re ^ 2 / 5 + 4 * (fanLoop C z).im ^ 2 / 3)) := by
        have e0 : Real.exp (4 * (0 : ℂ).re ^ 2 / 5 + 4 * (0 : ℂ).im ^ 2 / 3) = 1 := by simp
        rw [e0, Real.exp_neg]
        have := Real.exp_pos (4 * (fanLoop C z).re ^ 2 / 5 + 4 * (fanLoop C z).im ^ 2 / 3)
        generalize Real.exp (4 * (fanLoop C z).re ^ 2 / 5 + 4 * (fanLoop C z).im ^ 2 / 3) = x at *
        generalize Real.sqrt (16 / 15) = y at *
        rw [one_mul, div_mul_div_comm, one_mul, mul_assoc, hsq]
        field_simp
      rwa [e] at h3
  have hint : ∫ z, 15 / 16 * Real.exp (-(4 * (fanLoop C z).re ^ 2 / 5 + 4 * (fanLoop C z).im ^ 2 / 3)) ∂stdNormal (Fin 6) = 15 / 16 * Real.sqrt (45 / 56) := by
    rw [integral_const_mul]
    congr 1
    set t : ℝ := -(1 / 4) / Real.sqrt 2 with ht
    have ht2 : t * t = 1 / 32 := by
      rw [ht, div_mul_div_comm, Real.mul_self_sqrt (by norm_num)]
      norm_num
    set P : Matrix (Fin 2) (Fin 2) ℝ := diagonal ![8 / 5, 8 / 3] with hP
    set B : Matrix (Fin 2) (Fin 6) ℝ := !![0, 0, t * C 0 0 / 2, t * C 0 1 / 2, -t, 0; 0, 0, t * C 1 0 / 2, t * C 1 1 / 2, 0, -t] with hB
    have hPp : P.PosDef := by
      rw [hP, posDef_diagonal_iff]
      intro i; fin_cases i <;> norm_num
    have hg := gauss_conv P hPp B 0
    have hdet := (woodbury P hPp B).2.2
    have hform : ∀ z, fanLoop C z = ⟨t * ((C 0 0 * z 2 + C 0 1 * z 3) / 2 - z 4), t * ((C 1 0 * z 2 + C 1 1 * z 3) / 2 - z 5)⟩ := by
      intro z
      unfold fanLoop
      rw [show (⟨t * ((C 0 0 * z 2 + C 0 1 * z 3) / 2 - z 4), t * ((C 1 0 * z 2 + C 1 1 * z 3) / 2 - z 5)⟩ : ℂ) = (t : ℂ) * ⟨(C 0 0 * z 2 + C 0 1 * z 3) / 2 - z 4, (C 1 0 * z 2 + C 1 1 * z 3) / 2 - z 5⟩ by
        apply Complex.ext <;> simp]
      rw [ht]
      push_cast
      ring
    have hre : ∀ z, (fanLoop C z).re = (B *ᵥ z) 0 := by
      intro z
      rw [hform]
      simp [hB, mulVec, dotProduct, Fin.sum_univ_six]
      ring
    have him : ∀ z, (fanLoop C z).im = (B *ᵥ z) 1 := by
      intro z
      rw [hform]
      simp [hB, mulVec, dotProduct, Fin.sum_univ_six]
      ring
    have hquad : ∀ z, Real.exp (-(4 * (fanLoop C z).re ^ 2 / 5 + 4 * (fanLoop C z).im ^ 2 / 3)) = Real.exp (-((0 - B *ᵥ z) ⬝ᵥ P *ᵥ (0 - B *ᵥ z)) / 2) := by
      intro z
      congr 1
      rw [hre, him]
      generalize B *ᵥ z = w
      simp [hP, mulVec_diagonal, dotProduct, Fin.sum_univ_two]
      ring
    simp only [hquad]
    have c00 := congrFun (congrFun hC (.inl 0)) (.inl 0)
    have c01 := congrFun (congrFun hC (.inl 0)) (.inr 0)
    have c11 := congrFun (congrFun hC (.inr 0)) (.inr 0)
    simp only [Matrix.mul_apply, Fintype.sum_sum_type, Finset.univ_unique, Fin.default_eq_zero, Finset.sum_singleton, Matrix.add_apply, phase, transpose_apply, Matrix.of_apply, quad,
      Sum.elim_inl, Sum.elim_inr, Fin.val_zero, Nat.add_zero, one_apply_eq, one_apply_ne (show (Sum.inl 0 : Fin 1 ⊕ Fin 1) ≠ Sum.inr 0 by simp)] at c00 c01 c11
    norm_num [sqCov] at c00 c01 c11
    have hBB : P⁻¹ + B * Bᵀ = diagonal ![2 / 3, 7 / 16] := by
      have hPi : P⁻¹ = diagonal ![5 / 8, 3 / 8] := by
        refine inv_eq_right_inv ?_
        rw [hP, diagonal_mul_diagonal, ← diagonal_one]
        congr 1
        funext i
        fin_cases i <;> norm_num
      have hsum : ∀ i j, (P⁻¹ + B * Bᵀ) i j = P⁻¹ i j + (B i 0 * B j 0 + B i 1 * B j 1 + B i 2 * B j 2 + B i 3 * B j 3 + B i 4 * B j 4 + B i 5 * B j 5) := by
        intro i j
        rw [Matrix.add_apply, Matrix.mul_apply, Fin.sum_univ_six]
        rfl
      ext i j
      rw [hsum, hPi]
      have e := hB
      fin_cases i <;> fin_cases j
      · simp [hB]
        linear_combination (1 / 4 * (C 0 0 * C 0 0 + C 0 1 * C 0 1) + 1) * ht2 + 1 / 128 * c00
      · simp [hB]
        linear_combination (t * t / 4) * c01
      · simp [hB]
        linear_combination (t * t / 4) * c01
      · simp [hB]
        linear_combination (1 / 4 * (C 1 0 * C 1 0 + C 1 1 * C 1 1) + 1) * ht2 + 1 / 128 * c11
    rw [hg, ← hdet, hBB, hP, det_diagonal, det_diagonal, Fin.prod_univ_two, Fin.prod_univ_two]
    simp only [cons_val_zero, cons_val_one]
    rw [zero_dotProduct, neg_zero, zero_div, Real.exp_zero, show ((2 : ℝ) / 3 * (7 / 16) * (8 / 5 * (8 / 3))) = (45 / 56)⁻¹ by norm_num, Real.sqrt_inv, one_div, inv_inv]
  rw [← hint]
  exact hlim

/-- **C93, the negation for `fanout = 2`**: for the squeezed vacuum with covariance matrix `diag(1/3, 3)` (ħ = 2) the probability with which `generate_torontonian_sample` returns "no click" with
`fanout = 2` tends to `15/16 √(45/56) ≈ 0.8404` as the cutoff grows, while the probability that the detector does not click is `√3/2 ≈ 0.8660`.  The reason is `get_heterodyne_fanout`, which draws the
outcomes of the additional channels from the standard normal distribution: the heterodyne outcomes of a mode in the vacuum have half of this variance. -/
theorem generateTorontonianSample_fanout_biased (lib : Lib) (hl : GoodSampler lib) (htol : 0 ≤ lib.tol) {chol : ℕ → (ℕ → ℕ → ℂ) → Except PyErr (ℕ → ℕ → ℂ)} (hchol : CholeskyContract chol)
    (closeMu : ℝ → Bool) (hcl : ∀ x, closeMu x = true ↔ x = 0) (maxPhotons : ℕ) :
    ∃ s : GState ℝ, s.len = 2 ∧ Physical (phase 1 1 s.cov) 2 ∧ (∀ ν, SympSpectrum (phase 1 1 s.cov) ν → ∀ i, ν i = 1 ∨ 1 + 1e-10 ≤ ν i) ∧
      thresholdProb chol closeMu s [0] 2 = .ok ((Real.sqrt 3 / 2 : ℝ) : ℂ) ∧
      Filter.Tendsto (fun cutoff => fanLaw.real (returnsNoClick lib s cutoff maxPhotons)) Filter.atTop (nhds (15 / 16 * Real.sqrt (45 / 56))) ∧
      15 / 16 * Real.sqrt (45 / 56) < Real.sqrt 3 / 2 := by
  obtain ⟨hph, hdet⟩ := sqCov_physical (v := 1 / 3) (by norm_num)
  have hsp : ∀ ν, SympSpectrum (phase 1 1 (sqCov (1 / 3))) ν → ∀ i, ν i = 1 ∨ 1 + 1e-10 ≤ ν i := by
    intro ν hν i
    left
    have hp := sympSpectrum_unique _ _ _ hν (sqCov_spec (by norm_num))
    have hm : ν i ∈ List.ofFn fun _ : Fin 1 => (1 : ℝ) := hp.mem_iff.mp (List.mem_ofFn.mpr ⟨i, rfl⟩)
    obtain ⟨j, hj⟩ := List.mem_ofFn.mp hm
    exact hj.symm
  refine ⟨{ len := 2, mu := fun _ => 0, cov := sqCov (1 / 3) }, rfl, hph, hsp, ?_, ?_, ?_⟩
  · obtain ⟨ρ, _, _, -, hρ, -⟩ := fock_gram (N := 1) (fun _ => 0) (by norm_num : (0 : ℝ) < 2) hph
    obtain ⟨p, hp, hsum, -, -⟩ := thresholdProb_fock hchol closeMu hcl { len := 2, mu := fun _ => 0, cov := sqCov (1 / 3) } rfl (by norm_num : (0 : ℝ) < 2) hph hρ [0] rfl (by simp)
    rw [hp]
    have h0 : ∀ k : Fin 1, 0 < (0 : Fin 1 → ℕ) k ↔ ([0] : List ℕ).getD k 0 = 1 := fun k => by fin_cases k; simp
    have h1 := hasSum_single (f := fun n : {n : Fin 1 → ℕ // ∀ k : Fin 1, 0 < n k ↔ ([0] : List ℕ).getD k 0 = 1} => ρ n n) ⟨0, h0⟩ fun n hn => by
      exfalso
      apply hn
      apply Subtype.ext
      funext k
      have := n.2 k
      fin_cases k
      simp at this
      exact this
    have h2 := hsum.unique h1
    have h3 : p = husimiFn 1 (fun _ => 0) (sqCov (1 / 3)) 2 0 := by
      have h4 : (p : ℂ) = ρ 0 0 := h2
      rw [(fockMatrix_vacuum (by norm_num) hph hρ).1] at h4
      exact_mod_cast h4
    have h4 : cohQuad 2 (0 : Fin 1 → ℂ) - phaseVec 1 (fun _ => (0 : ℝ)) = 0 := by
      funext p
      rcases p with p | p <;> simp [cohQuad, phaseVec]
    have h5 : ((1 / 2 : ℝ) • (phase 1 1 (sqCov (1 / 3)) + ((2 : ℝ) / 2) • (1 : Matrix (Fin 1 ⊕ Fin 1) (Fin 1 ⊕ Fin 1) ℝ))).det = (3 / 4)⁻¹ := by
      rw [sqCov_phase, ← diagonal_one, ← diagonal_smul, diagonal_add, ← diagonal_smul, det_diagonal, Fintype.prod_sum_type]
      simp
      norm_num
    congr 2
    rw [h3]
    unfold husimiFn
    dsimp only
    rw [h4, h5, zero_dotProduct, neg_zero, zero_div, Real.exp_zero, Real.sqrt_inv, one_div, inv_inv, Real.sqrt_div (by norm_num), show (4 : ℝ) = 2 ^ 2 by norm_num, Real.sqrt_sq (by norm_num)]
  · obtain ⟨order, inv, means, r, T, W, C, -, hperm, -, hilen, hip, hinv, hred, hT, hdT, hW, hC, hrun⟩ :=
      generateTorontonianSample_born_all lib hl { len := 2, mu := fun _ => 0, cov := sqCov (1 / 3) } 1 one_ne_zero rfl hph hsp
    have ho : order = [0] := List.perm_singleton.mp hperm
    have hi : inv = [0] := List.perm_singleton.mp hip
    subst ho
    subst hi
    have hrc : phase 1 1 r.cov = phase 1 1 (sqCov (1 / 3)) := by
      have a1 := hred.xx 0 (by simp) 0 (by simp)
      have a2 := hred.xp 0 (by simp) 0 (by simp)
      have a3 := hred.px 0 (by simp) 0 (by simp)
      have a4 := hred.pp 0 (by simp) 0 (by simp)
      ext p q
      rcases p with p | p <;> rcases q with q | q <;> fin_cases p <;> fin_cases q
      · exact a1
      · exact a2
      · exact a3
      · exact a4
    have hrm : ∀ i < 2, r.mu i = 0 := by
      obtain ⟨a1, a2⟩ := hred.mean 0 (by simp)
      intro i hi
      interval_cases i
      · exact a1
      · exact a2
    rw [hrc] at hW
    obtain ⟨hT', hW'⟩ := sq_minimal (by norm_num) hT hdT hW
    have hTp : phase 1 1 T = phase 1 1 (sqCov (1 / 3)) := by
      ext p q
      exact hT' _ (by have := quad_lt 1 p; omega) _ (by have := quad_lt 1 q; omega)
    have hex : ∀ mu, ∃ ρ, IsFockMatrix 1 mu T 2 ρ := fun mu => by
      obtain ⟨ρ, _, _, -, h, -⟩ := fock_gram (N := 1) mu (by norm_num : (0 : ℝ) < 2) hT
      exact ⟨ρ, h⟩
    choose ρ hρ using hex
    rw [hTp] at hC
    refine (fan_limit C hC).congr' ?_
    filter_upwards [Filter.eventually_ge_atTop 1] with c hc
    refine (fan_prob C c _ fun ω hω => ?_).symm
    rw [← sq_run lib htol T W C hT' hW' r.mu hrm ρ hρ c maxPhotons ω.1 ω.2 hω]
    have h1 := hrun 2 (by norm_num) c hc maxPhotons (withFanDraws lib ω.1 ω.2).normal (withFanDraws lib ω.1 ω.2).uniform ρ hρ
    unfold returnsNoClick
    change (∃ k, generateTorontonianSample { lib with normal := (withFanDraws lib ω.1 ω.2).normal, uniform := (withFanDraws lib ω.1 ω.2).uniform } _ 2 maxPhotons 2 c 0 = _) ↔ _
    rw [h1]
    rfl
  · have h1 : 15 / 16 * Real.sqrt (45 / 56) = Real.sqrt (10125 / 14336) := by
      rw [show (10125 : ℝ) / 14336 = (15 / 16) ^ 2 * (45 / 56) by norm_num, Real.sqrt_mul (by norm_num), Real.sqrt_sq (by norm_num)]
    have h2 : Real.sqrt 3 / 2 = Real.sqrt (3 / 4) := by
      rw [Real.sqrt_div (by norm_num), show (4 : ℝ) = 2 ^ 2 by norm_num, Real.sqrt_sq (by norm_num)]
    rw [h1, h2]
    exact Real.sqrt_lt_sqrt (by norm_num) (by norm_num)

/-- the hypotheses hold for a library and a Cholesky decomposition -/
example : ∃ (lib : Lib) (s : GState ℝ), GoodSampler lib ∧ 0 ≤ lib.tol ∧
    thresholdProb (fun d M => .ok (quadCholesky (fun _ _ => 0) (List.range d) 0 d M)) (fun x => decide (x = 0)) s [0] 2 = .ok ((Real.sqrt 3 / 2 : ℝ) : ℂ) ∧
    ¬ Filter.Tendsto (fun cutoff => fanLaw.real (returnsNoClick lib s cutoff 30)) Filter.atTop (nhds (Real.sqrt 3 / 2)) := by
  obtain ⟨lib0, hl0, -⟩ := goodSampler_exists exampleLib
  have hl : GoodSampler { lib0 with tol := 1 } := ⟨hl0.1, hl0.2, hl0.3, hl0.4⟩
  obtain ⟨s, -, -, -, h1, h2, h3⟩ := generateTorontonianSample_fanout_biased _ hl (by norm_num) cholesky_contract (fun x => decide (x = 0)) (fun x => by simp) 30
  exact ⟨_, s, hl, by norm_num, h1, fun h => absurd (tendsto_nhds_unique h2 h) h3.ne⟩

end Verif.Props
