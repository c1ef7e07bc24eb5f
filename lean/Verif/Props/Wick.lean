/-
C94: Wick's theorem. The expectation value of any product of ladder operators in the density matrix of a Gaussian state is the sum over pairings the library evaluates with hafnians.
-/
import Verif.Props.FockMoments
import Verif.Lemmas.LadderWords
import Mathlib.GroupTheory.Perm.Basic

set_option linter.unusedSectionVars false
set_option linter.unusedSimpArgs false

namespace Verif.Props
open Verif.Model Verif.Model.Symp Verif.Model.Conv Verif.Model.Means Verif.Spec Verif.Lemmas Verif.Lemmas.Symp Verif.Lemmas.FPar Verif.Lemmas.FockS Verif.Lemmas.Word Matrix

variable {N : ℕ} {hbar : ℝ}

theorem ladderWt_factor (i j l : Fin N → ℕ) : (∏ k, Real.sqrt (((j + l) k).descFactorial (j k) : ℝ)) * ∏ k, Real.sqrt (((l k + i k).factorial : ℝ) / ((l k).factorial : ℝ)) = ladderWt i j l := by
  rw [ladderWt, ← Finset.prod_mul_distrib]
  refine Finset.prod_congr rfl fun k _ => ?_
  have e : ((j k + l k).descFactorial (j k) : ℝ) = ((j k + l k).factorial : ℝ) / ((l k).factorial : ℝ) := by
    rw [eq_div_iff (by positivity)]
    have := Nat.factorial_mul_descFactorial (Nat.le_add_right (j k) (l k))
    rw [Nat.add_sub_cancel_left] at this
    rw [mul_comm]
    exact_mod_cast this
  rw [Pi.add_apply, e, ← Real.sqrt_mul (by positivity), div_mul_div_comm, Real.sqrt_div (by positivity), Real.sqrt_mul_self (by positivity), add_comm (l k) (i k), mul_comm]

/-- a normally ordered product -/
theorem normal_expectation (ρ : (Fin N → ℕ) → (Fin N → ℕ) → ℂ) (wc wa : List (Fin N)) (v : ℂ)
    (h : HasSum (fun l : Fin N → ℕ => (ladderWt (fun k => wa.count k) (fun k => wc.count k) l : ℂ) * ρ ((fun k => wa.count k) + l) ((fun k => wc.count k) + l)) v) :
    IsExpectation ρ (wc.map (fun k : Fin N => (k : ℕ)) ++ wa.map (fun k : Fin N => N + (k : ℕ))) v := by
  generalize hi : (fun k => wa.count k) = i at h
  generalize hj : (fun k => wc.count k) = j at h
  have hj' : ∀ k, wc.count k = j k := fun k => congrFun hj k
  have hi' : ∀ k, wa.count k = i k := fun k => congrFun hi k
  have hval : ∀ n m : Fin N → ℕ, wordAct (wc.map (fun k : Fin N => (k : ℕ)) ++ wa.map (fun k : Fin N => N + (k : ℕ))) (fockVec n) m =
      ((∏ k, Real.sqrt ((m k).descFactorial (j k) : ℝ) : ℝ) : ℂ) * (((∏ k, Real.sqrt ((((m - j) k + i k).factorial : ℝ) / (((m - j) k).factorial : ℝ)) : ℝ) : ℂ) * fockVec n (m - j + i)) := fun n m => by
    rw [wordAct_append, word_cre, word_ann, hi, hj]
    simp only [hj', hi']
  unfold IsExpectation
  have inj : Function.Injective fun l : Fin N → ℕ => (i + l, j + l) := fun l l' e => add_right_injective i (Prod.mk.inj e).1
  rw [← Function.Injective.hasSum_iff inj]
  · refine hs_eq h (fun l => ?_) rfl
    have e : j + l - j = l := funext fun k => Nat.add_sub_cancel_left _ _
    rw [Function.comp_apply, hval, e, fockVec, if_pos (add_comm _ _), mul_one, ← Complex.ofReal_mul, ladderWt_factor]
    ring
  · rintro ⟨n, m⟩ hq
    rw [hval]
    dsimp only
    by_cases hle : ∀ k, j k ≤ m k
    · have e : j + (m - j) = m := funext fun k => Nat.add_sub_cancel' (hle k)
      have : ¬ (m - j + i = n) := fun h => hq ⟨m - j, by rw [← h]; exact Prod.ext (add_comm _ _) e⟩
      rw [fockVec, if_neg this, mul_zero, mul_zero, mul_zero]
    · push Not at hle
      obtain ⟨k, hk⟩ := hle
      have : (∏ k, Real.sqrt ((m k).descFactorial (j k) : ℝ)) = 0 := Finset.prod_eq_zero (Finset.mem_univ k) (by rw [Nat.descFactorial_of_lt hk]; simp)
      rw [this, Complex.ofReal_zero, zero_mul, mul_zero]

theorem IsExpectation_swap {ρ : (Fin N → ℕ) → (Fin N → ℕ) → ℂ} {u v : List ℕ} {x y : ℕ} (hx : x < 2 * N) (hy : y < 2 * N) {a b : ℂ} (ha : IsExpectation ρ (u ++ y :: x :: v) a) (hb : IsExpectation ρ (u ++ v) b) :
    IsExpectation ρ (u ++ x :: y :: v) (a + Word.comm N x y * b) := by
  unfold IsExpectation at *
  refine hs_eq (ha.add (hb.mul_left (Word.comm N x y))) (fun q => ?_) rfl
  rw [word_swap u v x y hx hy, Pi.add_apply, Pi.smul_apply, smul_eq_mul]
  ring

theorem orderedCov_comm (cov : ℕ → ℕ → ℝ) (hsym : ∀ i < 2 * N, ∀ j < 2 * N, cov i j = cov j i) (x y : ℕ) (hx : x < 2 * N) (hy : y < 2 * N) :
    orderedCov N cov hbar x y - orderedCov N cov hbar y x = Word.comm N x y := by
  have hs := fun s => ladderCov_symm N cov hbar s hsym x y hx hy
  have hc : ∀ i j, covNumber N cov hbar (-1) i j - covNumber N cov hbar 1 i j = kd i j := fun i j => by
    unfold covNumber
    push_cast
    ring
  unfold orderedCov Word.comm
  by_cases h1 : x < N <;> by_cases h2 : y < N
  · rw [if_neg (by omega), if_neg (by omega), if_neg (by omega), if_neg (by omega), hs, sub_self]
  · rw [if_neg (by omega), if_pos ⟨by omega, h1⟩, if_neg (by omega), hs]
    simp only [ladderCov, if_neg h2, if_pos h1]
    have := hc x (y - N)
    rw [← neg_sub, this, kd]
    by_cases h : y = N + x
    · rw [if_pos (by omega), if_pos ⟨h1, h⟩]
    · rw [if_neg (by omega), if_neg (fun h' => h h'.2), neg_zero]
  · rw [if_pos ⟨by omega, h2⟩, if_neg (by omega), ← hs]
    simp only [ladderCov, if_neg h1, if_pos h2]
    rw [hc, kd]
    by_cases h : x = N + y
    · rw [if_pos (by omega), if_pos ⟨h2, h⟩]
    · rw [if_neg (by omega), if_neg (fun h' => h h'.2), if_neg (by omega)]
  · rw [if_neg (by omega), if_neg (by omega), if_neg (by omega), if_neg (by omega), hs, sub_self]

/-- a product of ladder operators in another order -/
theorem expectation_perm {ρ : (Fin N → ℕ) → (Fin N → ℕ) → ℂ} {mu : ℕ → ℝ} {cov : ℕ → ℕ → ℝ} (hsym : ∀ i < 2 * N, ∀ j < 2 * N, cov i j = cov j i) (n : ℕ)
    (ih : ∀ w : List ℕ, w.length < n → (∀ x ∈ w, x < 2 * N) → IsExpectation ρ w (lh (ladderMean N mu hbar) (orderedCov N cov hbar) w)) {a b : List ℕ} (hp : a.Perm b) :
    ∀ u : List ℕ, (u ++ a).length = n → (∀ x ∈ u ++ a, x < 2 * N) → IsExpectation ρ (u ++ a) (lh (ladderMean N mu hbar) (orderedCov N cov hbar) (u ++ a)) →
      IsExpectation ρ (u ++ b) (lh (ladderMean N mu hbar) (orderedCov N cov hbar) (u ++ b)) := by
  induction hp with
  | nil => intro u _ _ h; exact h
  | cons x _ ih2 =>
    intro u hl hb h
    have := ih2 (u ++ [x]) (by simpa using hl) (by simpa using hb) (by simpa using h)
    simpa using this
  | swap x y l =>
    intro u hl hb h
    have hx : x < 2 * N := hb x (by simp)
    have hy : y < 2 * N := hb y (by simp)
    have hs := ih (u ++ l) (by simp at hl ⊢; omega) fun z hz => hb z (by simp at hz ⊢; tauto)
    have := IsExpectation_swap hx hy h hs
    rw [← orderedCov_comm cov hsym x y hx hy, ← lh_swap (ladderMean N mu hbar) (orderedCov N cov hbar) x y _ u l rfl] at this
    exact this
  | trans h1 h2 ih1 ih2 =>
    intro u hl hb h
    refine ih2 u (by rw [← hl]; simp [h1.length_eq]) (fun x hx => hb x ?_) (ih1 u hl hb h)
    simp only [List.mem_append] at hx ⊢
    exact hx.imp id fun h => h1.mem_iff.mpr h

theorem split_word (w : List ℕ) (hw : ∀ x ∈ w, x < 2 * N) : ∃ wc wa : List (Fin N), (wc.map (fun k : Fin N => (k : ℕ)) ++ wa.map (fun k : Fin N => N + (k : ℕ))).Perm w := by
  induction w with
  | nil => exact ⟨[], [], List.Perm.refl _⟩
  | cons x w ih =>
    obtain ⟨wc, wa, h⟩ := ih fun y hy => hw y (by simp [hy])
    have hx := hw x (by simp)
    by_cases hN : x < N
    · exact ⟨⟨x, hN⟩ :: wc, wa, h.cons x⟩
    · refine ⟨wc, ⟨x - N, by omega⟩ :: wa, ?_⟩
      have : N + (x - N) = x := by omega
      rw [List.map_cons]
      simp only [this]
      exact List.perm_middle.trans (h.cons x)

theorem repeated_perm (wc wa : List (Fin N)) : (repeatedIndices (List.ofFn (fun k : Fin N => wc.count k) ++ List.ofFn fun k : Fin N => wa.count k)).Perm (wc.map (fun k : Fin N => (k : ℕ)) ++ wa.map (fun k : Fin N => N + (k : ℕ))) := by
  have h1 : ∀ w : List (Fin N), (repeatedIndices (List.ofFn fun k : Fin N => w.count k)).Perm (w.map fun k : Fin N => (k : ℕ)) := fun w => by
    rw [List.perm_iff_count]
    intro x
    rw [count_repeated]
    by_cases hx : x < N
    · rw [List.getD_eq_getElem _ _ (by simpa using hx), List.getElem_ofFn]
      have : x = ((⟨x, hx⟩ : Fin N) : ℕ) := rfl
      conv_rhs => rw [this]
      exact (List.count_map_of_injective w (fun k : Fin N => (k : ℕ)) Fin.val_injective ⟨x, hx⟩).symm
    · rw [List.getD_eq_default _ _ (by simpa using hx), eq_comm, List.count_eq_zero]
      intro h
      obtain ⟨k, -, rfl⟩ := List.mem_map.mp h
      exact hx k.2
  rw [repeatedIndices_append, List.length_ofFn]
  refine (h1 wc).append ?_
  have := (h1 wa).map (N + ·)
  rwa [List.map_map] at this

theorem wordBound (wc wa : List (Fin N)) : ∀ x ∈ wc.map (fun k : Fin N => (k : ℕ)) ++ wa.map (fun k : Fin N => N + (k : ℕ)), x < 2 * N := by
  intro x hx
  simp only [List.mem_append, List.mem_map] at hx
  rcases hx with ⟨k, -, rfl⟩ | ⟨k, -, rfl⟩
  · have := k.2; omega
  · have := k.2; omega

theorem normal_lh (mu : ℕ → ℝ) {cov : ℕ → ℕ → ℝ} (hsym : ∀ i < 2 * N, ∀ j < 2 * N, cov i j = cov j i) (wc wa : List (Fin N)) :
    lh (ladderMean N mu hbar) (orderedCov N cov hbar) (wc.map (fun k : Fin N => (k : ℕ)) ++ wa.map (fun k : Fin N => N + (k : ℕ))) =
      moment N mu cov hbar 1 (repeatedIndices (List.ofFn (fun k : Fin N => wc.count k) ++ List.ofFn fun k : Fin N => wa.count k)) := by
  have hb := wordBound wc wa
  have hp := repeated_perm wc wa
  rw [moment_lh, lh_perm_mem (ladderMean N mu hbar) (ladderCov N cov hbar 1) (fun i hi j hj => ladderCov_symm N cov hbar 1 hsym i j (hb i (hp.mem_iff.mp hi)) (hb j (hp.mem_iff.mp hj))) hp]
  refine lh_congr_pw ?_
  have hno : ∀ x y, ¬ (N ≤ x ∧ y < N) → orderedCov N cov hbar x y = ladderCov N cov hbar 1 x y := fun x y h => if_neg h
  rw [List.pairwise_append]
  refine ⟨?_, ?_, ?_⟩
  · rw [List.pairwise_map]
    exact List.pairwise_iff_forall_sublist.mpr fun {a b} _ => hno _ _ (by have := a.2; omega)
  · rw [List.pairwise_map]
    exact List.pairwise_iff_forall_sublist.mpr fun {a b} _ => hno _ _ (by omega)
  · intro x hx y hy
    obtain ⟨k, -, rfl⟩ := List.mem_map.mp hx
    exact hno _ _ (by have := k.2; omega)

/-- **C94** Wick's theorem for Gaussian states: the expectation value `tr(ρ O_1 ⋯ O_m)` of a product of ladder operators, in any order, is the sum over all ways of pairing up some of them, of the product of
the covariances `⟨O_p O_q⟩ - ⟨O_p⟩⟨O_q⟩` (`p < q`) of the pairs and the means of the operators left alone. -/
theorem wick_words (hh : 0 < hbar) (mu : ℕ → ℝ) (cov : ℕ → ℕ → ℝ) (hph : Physical (phase N N cov) hbar) (ρ : (Fin N → ℕ) → (Fin N → ℕ) → ℂ) (hρ : IsFockMatrix N mu cov hbar ρ) (ops : List ℕ) (hops : ∀ x ∈ ops, x < 2 * N) :
    IsExpectation ρ ops (Spec.lhaf (Matrix.of fun p q : Fin ops.length => if p = q then ladderMean N mu hbar ops[p] else orderedCov N cov hbar ops[p] ops[q])) := by
  have hsym := physical_sym hph
  rw [spec_lhaf_list]
  induction hn : ops.length using Nat.strong_induction_on generalizing ops with
  | _ n ih =>
    obtain ⟨wc, wa, hp⟩ := split_word ops hops
    have h := expectation_perm (ρ := ρ) (mu := mu) (hbar := hbar) hsym n (fun w hw hb => ih w.length hw w hb rfl) hp [] (by rw [List.nil_append, hp.length_eq, hn]) (wordBound wc wa)
    refine h ?_
    rw [List.nil_append, normal_lh mu hsym]
    refine normal_expectation ρ wc wa _ ?_
    exact fock_moments hh mu cov hph ρ hρ _ _

end Verif.Props
