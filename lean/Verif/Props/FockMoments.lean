/-
C94: the normally ordered moments the library computes are the expectation values in the density matrix.
-/
import Verif.Props.LossFock
import Verif.Props.Moments
import Verif.Props.Mixture
import Verif.Lemmas.Fanout
import Mathlib.Analysis.Normed.Group.Tannery

set_option linter.unusedSectionVars false
set_option linter.unusedSimpArgs false

namespace Verif.Props
open Verif.Model Verif.Model.Symp Verif.Model.Conv Verif.Model.Loss Verif.Spec Verif.Lemmas Verif.Lemmas.Symp Verif.Lemmas.Heis Verif.Lemmas.FPar Verif.Lemmas.FockS Matrix
open scoped ComplexOrder Topology

/-! ### Losses and the off-diagonal entries -/

theorem psd_weight {σ : Type} {ρ : σ → σ → ℂ} (h : IsPsd ρ) (x y : σ) (a b : ℝ) (ha : 0 ≤ a) (hb : 0 ≤ b) : a * b * ‖ρ x y‖ ≤ a ^ 2 * (ρ x x).re + b ^ 2 * (ρ y y).re := by
  classical
  by_cases hxy : x = y
  · subst hxy
    have h0 := (h.diag x)
    have e : ‖ρ x x‖ = (ρ x x).re := by rw [h0.2, Complex.norm_real, Complex.ofReal_re, Real.norm_eq_abs, abs_of_nonneg h0.1]
    rw [e]
    nlinarith [mul_nonneg (add_nonneg (sq_nonneg (a - b)) (mul_nonneg ha hb)) h0.1]
  · have h' : IsPsd fun u v => ((if u = x then a else b : ℝ) : ℂ) * ((if v = x then a else b : ℝ) : ℂ) * ρ u v := by
      intro S w
      obtain ⟨r, hr, e⟩ := h S fun u => ((if u = x then a else b : ℝ) : ℂ) * w u
      refine ⟨r, hr, ?_⟩
      rw [← e]
      refine Finset.sum_congr rfl fun u _ => Finset.sum_congr rfl fun v _ => ?_
      rw [map_mul, Complex.conj_ofReal]
      ring
    have := h'.bound x y
    have hyx : y ≠ x := fun h => hxy h.symm
    simp only [if_true, if_neg hyx] at this
    rw [norm_mul, norm_mul, Complex.norm_real, Complex.norm_real, Real.norm_of_nonneg ha, Real.norm_of_nonneg hb, ← Complex.ofReal_mul, ← Complex.ofReal_mul,
      Complex.re_ofReal_mul, Complex.re_ofReal_mul] at this
    rw [sq, sq]
    exact this

theorem fibre_total {I J : Type} (c : I → ℂ) (w : I → J → ℂ) (g : I → ℂ) {T S : ℂ} (hf : HasSum (fun q : I × J => c q.1 * w q.1 q.2) T) (hg : ∀ n, HasSum (w n) (g n)) (h : HasSum (fun n => c n * g n) S) : T = S :=
  (hf.prod_fiberwise fun n => (hg n).mul_left (c n)).unique h

variable {N : ℕ} {hbar : ℝ}

/-- the amplitude factor of `l` lost photons between the Fock states `i` and `j` -/
noncomputable def lossWt (η : Fin N → ℝ) (i j l : Fin N → ℕ) : ℝ := ∏ k, Real.sqrt (survive (η k) (i k + l k) (i k)) * Real.sqrt (survive (η k) (j k + l k) (j k))

theorem lossWt_split (η : Fin N → ℝ) (i j l : Fin N → ℕ) : lossWt η i j l = (∏ k, Real.sqrt (survive (η k) (i k + l k) (i k))) * ∏ k, Real.sqrt (survive (η k) (j k + l k) (j k)) :=
  Finset.prod_mul_distrib

theorem lossWt_summable {η : Fin N → ℝ} (h0 : ∀ k, 0 ≤ η k) (h1 : ∀ k, η k ≤ 1) {ρ : (Fin N → ℕ) → (Fin N → ℕ) → ℂ} (hp : IsPsd ρ)
    (hd : ∀ j : Fin N → ℕ, Summable fun i : Fin N → ℕ => (∏ k, survive (η k) (i k) (j k)) * (ρ i i).re) (i j : Fin N → ℕ) :
    Summable fun l : Fin N → ℕ => ((lossWt η i j l : ℝ) : ℂ) * ρ (i + l) (j + l) := by
  have hinj : ∀ i : Fin N → ℕ, Function.Injective fun l : Fin N → ℕ => i + l := fun i => add_right_injective i
  have hs : ∀ i : Fin N → ℕ, Summable fun l : Fin N → ℕ => (∏ k, Real.sqrt (survive (η k) (i k + l k) (i k))) ^ 2 * (ρ (i + l) (i + l)).re := fun i => by
    refine ((hd i).comp_injective (hinj i)).congr fun l => ?_
    rw [Function.comp_apply, ← Finset.prod_pow]
    congr 1
    exact Finset.prod_congr rfl fun k _ => (Real.sq_sqrt (survive_nonneg (h0 k) (h1 k) _ _)).symm
  refine Summable.of_norm_bounded ((hs i).add (hs j)) fun l => ?_
  rw [norm_mul, Complex.norm_real, lossWt_split, Real.norm_of_nonneg (mul_nonneg (Finset.prod_nonneg fun k _ => Real.sqrt_nonneg _) (Finset.prod_nonneg fun k _ => Real.sqrt_nonneg _))]
  exact psd_weight hp _ _ _ _ (Finset.prod_nonneg fun k _ => Real.sqrt_nonneg _) (Finset.prod_nonneg fun k _ => Real.sqrt_nonneg _)

theorem lossWt_update (η : Fin N → ℝ) (a : Fin N) (i j l : Fin N → ℕ) (n : ℕ) :
    lossWt (Function.update η a 1) (i + Pi.single a n) (j + Pi.single a n) l = if l a = 0 then ∏ k ∈ Finset.univ.erase a, Real.sqrt (survive (η k) (i k + l k) (i k)) * Real.sqrt (survive (η k) (j k + l k) (j k)) else 0 := by
  unfold lossWt
  rw [← Finset.mul_prod_erase _ _ (Finset.mem_univ a), Function.update_self, survive_one, survive_one]
  by_cases hl : l a = 0
  · rw [if_pos hl, hl, if_pos (by simp), if_pos (by simp), Real.sqrt_one, one_mul, one_mul]
    refine Finset.prod_congr rfl fun k hk => ?_
    have hk := Finset.ne_of_mem_erase hk
    rw [Function.update_of_ne hk, Pi.add_apply, Pi.add_apply, Pi.single_eq_of_ne hk, add_zero, add_zero]
  · rw [if_neg hl, if_neg (by omega), Real.sqrt_zero, zero_mul, zero_mul]

theorem lossWt_step (η : Fin N → ℝ) (a : Fin N) (ρ ρ₁ : (Fin N → ℕ) → (Fin N → ℕ) → ℂ) (i j : Fin N → ℕ) (T S : ℂ)
    (hF : HasSum (fun l : Fin N → ℕ => ((lossWt η i j l : ℝ) : ℂ) * ρ (i + l) (j + l)) T)
    (hp₁ : ∀ n : ℕ, HasSum (fun l : Fin N → ℕ => ((lossWt (Function.update η a 1) (i + Pi.single a n) (j + Pi.single a n) l : ℝ) : ℂ) * ρ (i + Pi.single a n + l) (j + Pi.single a n + l)) (ρ₁ (i + Pi.single a n) (j + Pi.single a n)))
    (hsum : HasSum (fun n : ℕ => ((Real.sqrt (survive (η a) (i a + n) (i a)) * Real.sqrt (survive (η a) (j a + n) (j a)) : ℝ) : ℂ) * ρ₁ (i + Pi.single a n) (j + Pi.single a n)) S) :
    HasSum (fun l : Fin N → ℕ => ((lossWt η i j l : ℝ) : ℂ) * ρ (i + l) (j + l)) S := by
  have inj : Function.Injective fun l : Fin N → ℕ => (l a, Function.update l a 0) := fun l l' h => by
    simp only [Prod.mk.injEq] at h
    funext k
    by_cases hk : k = a
    · rw [hk, h.1]
    · have := congrFun h.2 k
      rwa [Function.update_of_ne hk, Function.update_of_ne hk] at this
  have hG : HasSum (fun q : ℕ × (Fin N → ℕ) => ((Real.sqrt (survive (η a) (i a + q.1) (i a)) * Real.sqrt (survive (η a) (j a + q.1) (j a)) : ℝ) : ℂ) *
      (((lossWt (Function.update η a 1) (i + Pi.single a q.1) (j + Pi.single a q.1) q.2 : ℝ) : ℂ) * ρ (i + Pi.single a q.1 + q.2) (j + Pi.single a q.1 + q.2))) (T) := by
    rw [← Function.Injective.hasSum_iff inj]
    · refine hs_eq hF (fun l => ?_) rfl
      have e : ∀ i : Fin N → ℕ, i + Pi.single a (l a) + Function.update l a 0 = i + l := fun i => by
        funext k
        by_cases hk : k = a
        · subst hk; simp
        · simp [hk]
      simp only [Function.comp_apply]
      rw [e, e, lossWt_update, if_pos (Function.update_self _ _ _), ← mul_assoc, ← Complex.ofReal_mul]
      congr 2
      rw [lossWt, ← Finset.mul_prod_erase _ _ (Finset.mem_univ a)]
      congr 1
      refine Finset.prod_congr rfl fun k hk => ?_
      rw [Function.update_of_ne (Finset.ne_of_mem_erase hk)]
    · rintro ⟨n, l⟩ hq
      have hl : l a ≠ 0 := fun h => hq ⟨l + Pi.single a n, by
        refine Prod.ext ?_ ?_
        · simp [h]
        · funext k
          by_cases hk : k = a
          · subst hk; simp [h]
          · simp [hk]⟩
      rw [lossWt_update, if_neg hl, Complex.ofReal_zero, zero_mul, mul_zero]
  have e : T = S := by
    refine fibre_total (fun n : ℕ => ((Real.sqrt (survive (η a) (i a + n) (i a)) * Real.sqrt (survive (η a) (j a + n) (j a)) : ℝ) : ℂ))
      (fun n (l : Fin N → ℕ) => ((lossWt (Function.update η a 1) (i + Pi.single a n) (j + Pi.single a n) l : ℝ) : ℂ) * ρ (i + Pi.single a n + l) (j + Pi.single a n + l))
      (fun n => ρ₁ (i + Pi.single a n) (j + Pi.single a n)) ?_ ?_ ?_
    · exact hG
    · exact hp₁
    · exact hsum
  rw [e] at hF
  exact hF

theorem lossy_matrix (hh : 0 < hbar) (mu : ℕ → ℝ) (cov : ℕ → ℕ → ℝ) (hph : Physical (phase N N cov) hbar) (ρ : (Fin N → ℕ) → (Fin N → ℕ) → ℂ) (hρ : IsFockMatrix N mu cov hbar ρ) (A : Finset (Fin N)) :
    ∀ η : Fin N → ℝ, (∀ k, 0 ≤ η k) → (∀ k, η k ≤ 1) → (∀ k, k ∉ A → η k = 1) → ∀ (mu' : ℕ → ℝ) (cov' : ℕ → ℕ → ℝ), phaseVec N mu' = lossD η *ᵥ phaseVec N mu →
      phase N N cov' = lossD η * phase N N cov * lossD η + (hbar / 2) • (1 - lossD η * lossD η) →
      ∀ ρ', IsFockMatrix N mu' cov' hbar ρ' → ∀ i j, HasSum (fun l : Fin N → ℕ => ((lossWt η i j l : ℝ) : ℂ) * ρ (i + l) (j + l)) (ρ' i j) := by
  induction A using Finset.induction_on with
  | empty =>
    intro η h0 h1 hA mu' cov' hmu hcov ρ' hρ' i j
    have hη : η = fun _ => 1 := funext fun k => hA k (Finset.notMem_empty k)
    have hD : lossD η = 1 := by
      rw [hη, lossD]
      ext p q
      rcases p with p | p <;> rcases q with q | q <;> simp [diagonal_apply, Matrix.one_apply]
    rw [hD, one_mulVec] at hmu
    rw [hD, Matrix.one_mul, Matrix.mul_one, Matrix.mul_one, sub_self, smul_zero, add_zero] at hcov
    have : ρ' = ρ := by
      refine fockMatrix_unique (mu := mu) (cov := cov) (hbar := hbar) ?_ hρ
      rw [isFock_iff] at hρ' ⊢
      rwa [hmu, hcov] at hρ'
    subst this
    refine hs_eq (hasSum_ite_eq (0 : Fin N → ℕ) (ρ' i j)) (fun l => ?_) rfl
    by_cases hl : l = 0
    · subst hl; simp [lossWt, hη, survive_one]
    · obtain ⟨k, hk⟩ : ∃ k, l k ≠ 0 := by by_contra h2; push Not at h2; exact hl (funext h2)
      have : lossWt η i j l = 0 := by
        unfold lossWt
        refine Finset.prod_eq_zero (Finset.mem_univ k) ?_
        rw [hη, survive_one, if_neg (by omega), Real.sqrt_zero, zero_mul]
      rw [if_neg hl, this, Complex.ofReal_zero, zero_mul]
  | insert a A ha ih =>
    intro η h0 h1 hA mu' cov' hmu hcov ρ' hρ' i j
    obtain ⟨mu₁, hmu₁⟩ := exists_phaseVec (lossD (Function.update η a 1) *ᵥ phaseVec N mu)
    obtain ⟨cov₁, hcov₁⟩ := exists_cov (lossD (Function.update η a 1) * phase N N cov * lossD (Function.update η a 1) + (hbar / 2) • (1 - lossD (Function.update η a 1) * lossD (Function.update η a 1)))
    have u0 : ∀ k, 0 ≤ Function.update η a 1 k := fun k => by by_cases hk : k = a <;> simp [hk, h0]
    have u1 : ∀ k, Function.update η a 1 k ≤ 1 := fun k => by by_cases hk : k = a <;> simp [hk, h1]
    have uA : ∀ k, k ∉ A → Function.update η a 1 k = 1 := fun k hk => by
        by_cases hka : k = a
        · simp [hka]
        · rw [Function.update_of_ne hka]; exact hA k (by simp [hka, hk])
    have hp₁ := ih (Function.update η a 1) u0 u1 uA mu₁ cov₁ hmu₁ hcov₁
    obtain ⟨hph₁, -⟩ := lossy_induction hh mu cov hph ρ hρ A (Function.update η a 1) u0 u1 uA mu₁ cov₁ hmu₁ hcov₁
    obtain ⟨-, hdiag⟩ := lossy_induction hh mu cov hph ρ hρ (insert a A) η h0 h1 hA mu' cov' hmu hcov
    obtain ⟨ρ₁, _, _, -, hρ₁, -⟩ := fock_gram (N := N) mu₁ hh hph₁
    obtain ⟨r, hr, hloss⟩ := loss_fock hh ⟨2 * N, mu₁, cov₁⟩ rfl hph₁ (η a) (h0 a) (h1 a) a ρ₁ hρ₁
    have hr' := loss_eq N ⟨2 * N, mu₁, cov₁⟩ rfl (η a) (h0 a) a a.2 0 hbar
    obtain rfl := Except.ok.inj (hr.symm.trans hr')
    obtain ⟨e1, e2⟩ := loss_step_moments (hbar := hbar) mu cov η h0 a mu₁ cov₁ hmu₁ hcov₁
    rw [← hmu] at e1
    rw [← hcov] at e2
    have hsum := hloss ρ' (by rw [isFock_iff] at hρ' ⊢; rwa [e1, e2]) i j
    have hF := (lossWt_summable h0 h1 (fock_isPsd hh hph hρ) (fun j => (hdiag ρ' hρ' j).summable) i j).hasSum
    have hq : ∀ i j, HasSum (fun l : Fin N → ℕ => ((lossWt (Function.update η a 1) i j l : ℝ) : ℂ) * ρ (i + l) (j + l)) (ρ₁ i j) := hp₁ ρ₁ hρ₁
    clear hp₁ hloss hdiag ih
    refine lossWt_step η a ρ ρ₁ i j _ _ hF (fun n => ?_) ?_
    · exact hq _ _
    · exact hsum

/-! ### Equal small transmissions -/

/-- `√((i+l)! (j+l)!) / l!`, by mode: the matrix element of the ladder operators between `i + l` and `j + l` -/
noncomputable def ladderWt (i j l : Fin N → ℕ) : ℝ := ∏ k, Real.sqrt (((i k + l k).factorial : ℝ) * ((j k + l k).factorial : ℝ)) / ((l k).factorial : ℝ)

theorem ladderWt_nonneg (i j l : Fin N → ℕ) : 0 ≤ ladderWt i j l := Finset.prod_nonneg fun k _ => by positivity

theorem sqrt_pow' {x : ℝ} (h : 0 ≤ x) (n : ℕ) : Real.sqrt (x ^ n) = Real.sqrt x ^ n := by
  rw [Real.sqrt_eq_iff_mul_self_eq (pow_nonneg h n) (by positivity), ← mul_pow, Real.mul_self_sqrt h]

theorem lossWt_const (η : ℝ) (h0 : 0 ≤ η) (h1 : η ≤ 1) (i j l : Fin N → ℕ) :
    lossWt (fun _ => η) i j l = Real.sqrt η ^ (∑ k, j k + ∑ k, i k) * ((1 - η) ^ (∑ k, l k) * ladderWt i j l) / Real.sqrt ((∏ k, ((j k).factorial : ℝ)) * ∏ k, ((i k).factorial : ℝ)) := by
  have e : Real.sqrt ((∏ k, ((j k).factorial : ℝ)) * ∏ k, ((i k).factorial : ℝ)) = ∏ k, Real.sqrt (((j k).factorial : ℝ) * ((i k).factorial : ℝ)) := by
    rw [← Finset.prod_mul_distrib, Real.sqrt_prod _ fun k _ => by positivity]
  have hs : ∀ a b : ℕ, Real.sqrt (survive η (a + b) a) = Real.sqrt ((a + b).factorial : ℝ) / (Real.sqrt (a.factorial : ℝ) * Real.sqrt (b.factorial : ℝ)) * Real.sqrt η ^ a * Real.sqrt (1 - η) ^ b := fun a b => by
    have hc : ((a + b).choose a : ℝ) = ((a + b).factorial : ℝ) / ((a.factorial : ℝ) * (b.factorial : ℝ)) := by
      rw [eq_div_iff (by positivity), ← mul_assoc]
      have := Nat.choose_mul_factorial_mul_factorial (Nat.le_add_right a b)
      rw [Nat.add_sub_cancel_left] at this
      exact_mod_cast this
    have e1 : Real.sqrt (η ^ a) = Real.sqrt η ^ a := sqrt_pow' h0 a
    have e2 : Real.sqrt ((1 - η) ^ b) = Real.sqrt (1 - η) ^ b := sqrt_pow' (by linarith) b
    rw [survive, Nat.add_sub_cancel_left, Real.sqrt_mul (by positivity), Real.sqrt_mul (by positivity), hc, Real.sqrt_div (by positivity), Real.sqrt_mul (by positivity), e1, e2]
  rw [e, ladderWt, lossWt, ← Finset.sum_add_distrib, ← Finset.prod_pow_eq_pow_sum, ← Finset.prod_pow_eq_pow_sum, ← Finset.prod_mul_distrib, ← Finset.prod_mul_distrib, ← Finset.prod_div_distrib]
  refine Finset.prod_congr rfl fun k _ => ?_
  rw [hs, hs, Real.sqrt_mul (by positivity), Real.sqrt_mul (by positivity)]
  have h2 : (1 - η) ^ l k = Real.sqrt (1 - η) ^ l k * Real.sqrt (1 - η) ^ l k := by rw [← mul_pow, Real.mul_self_sqrt (by linarith)]
  have h3 : ((l k).factorial : ℝ) = Real.sqrt ((l k).factorial : ℝ) * Real.sqrt ((l k).factorial : ℝ) := (Real.mul_self_sqrt (by positivity)).symm
  have h4 : Real.sqrt ((i k).factorial : ℝ) ≠ 0 := by positivity
  have h5 : Real.sqrt ((j k).factorial : ℝ) ≠ 0 := by positivity
  have h6 : Real.sqrt ((l k).factorial : ℝ) ≠ 0 := by positivity
  rw [h2, pow_add]
  conv_rhs => rw [h3]
  field_simp

theorem lossD_const (η : ℝ) : lossD (fun _ : Fin N => η) = Real.sqrt η • (1 : Matrix (Fin N ⊕ Fin N) (Fin N ⊕ Fin N) ℝ) := by
  rw [lossD]
  ext p q
  rcases p with p | p <;> rcases q with q | q <;> simp [diagonal_apply, Matrix.one_apply]

/-- the state behind equal losses -/
noncomputable def lossCov (cov : ℕ → ℕ → ℝ) (hbar η : ℝ) : ℕ → ℕ → ℝ := fun i j => η * cov i j + (1 - η) * (hbar / 2) * eye i j

theorem Qmat_lossCov (hh : 0 < hbar) (cov : ℕ → ℕ → ℝ) (η : ℝ) :
    phase N N (Qmat N (lossCov cov hbar η) hbar) = 1 + (η : ℂ) • (phase N N (Qmat N cov hbar) - 1) := by
  have hne : hbar ≠ 0 := hh.ne'
  have hN : ∀ i j : ℕ, (eye (N + i) (N + j) : ℝ) = eye i j := fun i j => by simp [eye]
  have h1 : ∀ i j : ℕ, i < N → (eye i (N + j) : ℝ) = 0 := fun i j h => by simp only [eye]; rw [if_neg (by omega)]
  have h2 : ∀ i j : ℕ, j < N → (eye (N + i) j : ℝ) = 0 := fun i j h => by simp only [eye]; rw [if_neg (by omega)]
  have hxx : ∀ i < N, ∀ j < N, Qmat N (lossCov cov hbar η) hbar i j = eye i j + η * (Qmat N cov hbar i j - eye i j) := by
    intro i hi j hj
    rw [Qmat_xx_mk _ _ _ _ _ hi hj, Qmat_xx_mk _ _ _ _ _ hi hj]
    simp only [lossCov, hN, h1 i j hi, h1 j i hj]
    have : (eye i j : ℂ) = ((eye i j : ℝ) : ℂ) := by unfold eye; split_ifs <;> simp
    rw [this]
    apply Complex.ext
    · simp [eye]; split_ifs <;> field_simp <;> ring
    · simp; field_simp
  have hpx : ∀ i < N, ∀ j < N, Qmat N (lossCov cov hbar η) hbar (N + i) j = η * Qmat N cov hbar (N + i) j := by
    intro i hi j hj
    rw [Qmat_px_mk _ _ _ _ _ hi hj, Qmat_px_mk _ _ _ _ _ hi hj]
    simp only [lossCov, hN, h1 i j hi, h1 j i hj]
    apply Complex.ext
    · simp; field_simp; try ring
    · simp; field_simp; try ring
  have hc : ∀ i j, (starRingEnd ℂ) (eye i j : ℂ) = eye i j := fun i j => by unfold eye; split_ifs <;> simp
  have hk : ∀ a b : Fin N, (eye (a : ℕ) b : ℂ) = if a = b then 1 else 0 := fun a b => by simp [eye, Fin.val_inj]
  ext p q
  rw [Matrix.add_apply, Matrix.smul_apply, Matrix.sub_apply, smul_eq_mul]
  rcases p with a | a <;> rcases q with b | b <;> simp only [phase, Matrix.of_apply, quad, Sum.elim_inl, Sum.elim_inr, Matrix.one_apply, Sum.inl.injEq, Sum.inr.injEq, reduceCtorEq, if_false, ← hk]
  · exact hxx _ a.2 _ b.2
  · rw [Qmat_xp _ _ _ _ _ a.2 b.2, Qmat_xp _ _ _ _ _ a.2 b.2, hpx _ a.2 _ b.2, map_mul, Complex.conj_ofReal, sub_zero, zero_add]
  · rw [hpx _ a.2 _ b.2, sub_zero, zero_add]
  · rw [Qmat_pp _ _ _ _ _ a.2 b.2, Qmat_pp _ _ _ _ _ a.2 b.2, hxx _ a.2 _ b.2, map_add, map_mul, Complex.conj_ofReal, map_sub, hc]

theorem amp_scale (mu : ℕ → ℝ) (c : ℝ) (k : ℕ) : complexToReal N (fun i => c * mu i) hbar k = (c : ℂ) * complexToReal N mu hbar k := by
  have e : ∀ a b : ℝ, ((c * a : ℝ) : ℂ) + Complex.I * ((c * b : ℝ) : ℂ) = (c : ℂ) * (a + Complex.I * b) := fun a b => by push_cast; ring
  unfold complexToReal
  dsimp only
  split_ifs
  · rw [e, mul_div_assoc]
  · rw [e, mul_div_assoc, map_mul, Complex.conj_ofReal]

/-- the entries of a state behind equal losses, divided by the transmission to the power of the number of operators -/
theorem loss_scaled (hh : 0 < hbar) (mu : ℕ → ℝ) (cov : ℕ → ℕ → ℝ) (hph : Physical (phase N N cov) hbar) (ρ : (Fin N → ℕ) → (Fin N → ℕ) → ℂ) (hρ : IsFockMatrix N mu cov hbar ρ)
    (η : ℝ) (h0 : 0 < η) (h1 : η ≤ 1) :
    ∃ (A : ℕ → ℕ → ℂ) (γ : ℕ → ℂ) (pref : ℂ),
      phase N N A = (phase N N (Qmat N cov hbar) - 1) * (1 + (η : ℂ) • (phase N N (Qmat N cov hbar) - 1))⁻¹ * fromBlocks 0 1 1 0 ∧
      (∀ k, γ k = (starRingEnd ℂ) (complexToReal N mu hbar k) - (η : ℂ) * dot (2 * N) (A k) (complexToReal N mu hbar)) ∧
      ∀ i j, HasSum (fun l : Fin N → ℕ => (((1 - η) ^ (∑ k, l k) : ℝ) : ℂ) * ((ladderWt i j l : ℂ) * ρ (i + l) (j + l))) (pref * lh γ A (repeatedIndices (List.ofFn j ++ List.ofFn i))) := by
  have hmu : phaseVec N (fun i => Real.sqrt η * mu i) = lossD (fun _ => η) *ᵥ phaseVec N mu := by
    rw [lossD_const, smul_mulVec, one_mulVec]
    rfl
  have hcov : phase N N (lossCov cov hbar η) = lossD (fun _ => η) * phase N N cov * lossD (fun _ => η) + (hbar / 2) • (1 - lossD (fun _ => η) * lossD (fun _ => η)) := by
    have e : Real.sqrt η * Real.sqrt η = η := Real.mul_self_sqrt h0.le
    rw [lossD_const]
    simp only [Matrix.smul_mul, Matrix.mul_smul, Matrix.one_mul, Matrix.mul_one, smul_smul, e]
    ext p q
    have h : (eye (quad N p) (quad N q) : ℝ) = (1 : Matrix (Fin N ⊕ Fin N) (Fin N ⊕ Fin N) ℝ) p q := by
      simp only [eye, Matrix.one_apply, (quad_injective N).eq_iff]
    simp only [phase, Matrix.of_apply, Matrix.add_apply, Matrix.smul_apply, Matrix.sub_apply, smul_eq_mul, lossCov, h]
    ring
  obtain ⟨hph', -⟩ := lossy_induction hh mu cov hph ρ hρ Finset.univ (fun _ => η) (fun _ => h0.le) (fun _ => h1) (fun k hk => absurd (Finset.mem_univ k) hk) _ _ hmu hcov
  have hm := lossy_matrix hh mu cov hph ρ hρ Finset.univ (fun _ => η) (fun _ => h0.le) (fun _ => h1) (fun k hk => absurd (Finset.mem_univ k) hk) _ _ hmu hcov
  obtain ⟨A, γ, pref, -, -, hAX, hγ, -, hpos, -, hF, hv⟩ := fock_setup (fun i => Real.sqrt η * mu i) hh hph'
  have hdet : IsUnit (1 + (η : ℂ) • (phase N N (Qmat N cov hbar) - 1)).det := by
    rw [← Qmat_lossCov hh, det_Q (physical_sym hph') hh, isUnit_iff_ne_zero, Complex.ofReal_ne_zero]
    exact (det_W_pos hph' hh).ne'
  have hηc : (η : ℂ) ≠ 0 := by exact_mod_cast h0.ne'
  have hs : (Real.sqrt η : ℂ) * (Real.sqrt η : ℂ) = η := by rw [← Complex.ofReal_mul, Real.mul_self_sqrt h0.le]
  have hs0 : (Real.sqrt η : ℂ) ≠ 0 := by rw [Complex.ofReal_ne_zero]; positivity
  refine ⟨fun i j => (η : ℂ)⁻¹ * A i j, fun k => (Real.sqrt η : ℂ)⁻¹ * γ k, pref, ?_, fun k => ?_, fun i j => ?_⟩
  · have e : phase N N (fun i j => (η : ℂ)⁻¹ * A i j) = (η : ℂ)⁻¹ • phase N N A := rfl
    rw [phase_Xmat, Qmat_lossCov hh] at hAX
    have e2 : phase N N A = (1 - (1 + (η : ℂ) • (phase N N (Qmat N cov hbar) - 1))⁻¹) * fromBlocks 0 1 1 0 := by
      rw [← hAX, Matrix.mul_assoc, Xmat_sq, Matrix.mul_one]
    have e3 : (1 : Matrix (Fin N ⊕ Fin N) (Fin N ⊕ Fin N) ℂ) - (1 + (η : ℂ) • (phase N N (Qmat N cov hbar) - 1))⁻¹ = (η : ℂ) • ((phase N N (Qmat N cov hbar) - 1) * (1 + (η : ℂ) • (phase N N (Qmat N cov hbar) - 1))⁻¹) := by
      have := Matrix.mul_nonsing_inv _ hdet
      rw [Matrix.add_mul, Matrix.one_mul, Matrix.smul_mul] at this
      exact sub_eq_of_eq_add' this.symm
    rw [e, e2, e3, Matrix.smul_mul, smul_smul, inv_mul_cancel₀ hηc, one_smul]
  · rw [hγ]
    dsimp only
    have e : dot (2 * N) (A k) (complexToReal N (fun i => Real.sqrt η * mu i) hbar) = (Real.sqrt η : ℂ) * ((η : ℂ) * dot (2 * N) (fun j => (η : ℂ)⁻¹ * A k j) (complexToReal N mu hbar)) := by
      rw [dot_sum, dot_sum, Finset.mul_sum, Finset.mul_sum]
      refine Finset.sum_congr rfl fun x _ => ?_
      rw [amp_scale]
      field_simp
    rw [e, amp_scale, map_mul, Complex.conj_ofReal, ← mul_sub, ← mul_assoc, inv_mul_cancel₀ hs0, one_mul]
  · have h := hm _ hF i j
    rw [hv] at h
    have hl : lh γ A (repeatedIndices (List.ofFn j ++ List.ofFn i)) = (Real.sqrt η : ℂ) ^ (∑ k, j k + ∑ k, i k) * lh (fun k => (Real.sqrt η : ℂ)⁻¹ * γ k) (fun i j => (η : ℂ)⁻¹ * A i j) (repeatedIndices (List.ofFn j ++ List.ofFn i)) := by
      have h2 := Fan.lh_homog (Real.sqrt η : ℂ) (fun k => (Real.sqrt η : ℂ)⁻¹ * γ k) (fun i j => (η : ℂ)⁻¹ * A i j) (repeatedIndices (List.ofFn j ++ List.ofFn i))
      rw [repeatedIndices_length, List.sum_append, List.sum_ofFn, List.sum_ofFn] at h2
      rw [← h2]
      refine lh_congr (fun x _ => ?_) fun x _ y _ => ?_
      · rw [← mul_assoc, mul_inv_cancel₀ hs0, one_mul]
      · rw [sq, hs, ← mul_assoc, mul_inv_cancel₀ hηc, one_mul]
    have hF0 : (0 : ℝ) < (∏ k, ((j k).factorial : ℝ)) * ∏ k, ((i k).factorial : ℝ) := by positivity
    have hd0 : (Real.sqrt ((∏ k, ((j k).factorial : ℝ)) * ∏ k, ((i k).factorial : ℝ)) : ℂ) ≠ 0 := by
      rw [Complex.ofReal_ne_zero]; positivity
    have h3 := h.mul_left ((Real.sqrt ((∏ k, ((j k).factorial : ℝ)) * ∏ k, ((i k).factorial : ℝ)) : ℂ) * ((Real.sqrt η : ℂ) ^ (∑ k, j k + ∑ k, i k))⁻¹)
    have hp0 := pow_ne_zero (∑ k, j k + ∑ k, i k) hs0
    refine hs_eq h3 (fun l => ?_) ?_
    · rw [lossWt_const η h0.le h1]
      push_cast
      generalize (Real.sqrt η : ℂ) ^ (∑ k, j k + ∑ k, i k) = u at hp0 ⊢
      generalize (Real.sqrt ((∏ k, ((j k).factorial : ℝ)) * ∏ k, ((i k).factorial : ℝ)) : ℂ) = w at hd0 ⊢
      field_simp
    · rw [hl]
      generalize (Real.sqrt η : ℂ) ^ (∑ k, j k + ∑ k, i k) = u at hp0 ⊢
      generalize (Real.sqrt ((∏ k, ((j k).factorial : ℝ)) * ∏ k, ((i k).factorial : ℝ)) : ℂ) = w at hd0 ⊢
      field_simp

/-! ### Small transmissions -/

theorem eSum_tendsto {X σ : Type} {F : Filter X} (l : List σ) : ∀ (f : X → σ → List σ → ℂ) (g : σ → List σ → ℂ), (∀ y ys, ys.length + 1 = l.length → (y :: ys).Subset l → Filter.Tendsto (fun x => f x y ys) F (𝓝 (g y ys))) →
    Filter.Tendsto (fun x => eSum (f x) l) F (𝓝 (eSum g l)) := by
  induction l with
  | nil => intro f g _; simp only [eSum_nil]; exact tendsto_const_nhds
  | cons a l ih =>
    intro f g hf
    simp only [eSum_cons]
    refine (hf a l rfl (List.Subset.refl _)).add (ih (fun x y ys => f x y (a :: ys)) (fun y ys => g y (a :: ys)) fun y ys hy hs => hf y (a :: ys) (by simp; omega) fun z hz => ?_)
    simp only [List.mem_cons] at hz ⊢
    rcases hz with rfl | rfl | hz
    · exact Or.inr (hs (by simp))
    · exact Or.inl rfl
    · exact Or.inr (hs (by simp [hz]))

theorem lh_tendsto {X σ : Type} {F : Filter X} (D : X → σ → ℂ) (D₀ : σ → ℂ) (A : X → σ → σ → ℂ) (A₀ : σ → σ → ℂ) (n : ℕ) : ∀ l : List σ, l.length ≤ n → (∀ k ∈ l, Filter.Tendsto (fun x => D x k) F (𝓝 (D₀ k))) →
    (∀ k ∈ l, ∀ m ∈ l, Filter.Tendsto (fun x => A x k m) F (𝓝 (A₀ k m))) → Filter.Tendsto (fun x => lh (D x) (A x) l) F (𝓝 (lh D₀ A₀ l)) := by
  induction n with
  | zero =>
    intro l hl _ _
    obtain rfl := List.length_eq_zero_iff.mp (Nat.le_zero.mp hl)
    simp only [lh_nil]
    exact tendsto_const_nhds
  | succ n ih =>
    intro l hl hD hA
    rcases l with _ | ⟨x, xs⟩
    · simp only [lh_nil]; exact tendsto_const_nhds
    · simp only [lh_cons]
      rw [List.length_cons] at hl
      refine ((hD x (by simp)).mul (ih xs (by omega) (fun k hk => hD k (by simp [hk])) fun k hk m hm => hA k (by simp [hk]) m (by simp [hm]))).add
        (eSum_tendsto xs (fun z y ys => A z x y * lh (D z) (A z) ys) (fun y ys => A₀ x y * lh D₀ A₀ ys) fun y ys hy hs => (hA x (by simp) y (List.mem_cons_of_mem _ (hs (by simp)))).mul ?_)
      exact ih ys (by omega) (fun k hk => hD k (List.mem_cons_of_mem _ (hs (by simp [hk])))) fun k hk m hm => hA k (List.mem_cons_of_mem _ (hs (by simp [hk]))) m (List.mem_cons_of_mem _ (hs (by simp [hm])))

theorem small_pos : ∀ᶠ η : ℝ in 𝓝[>] 0, 0 < η ∧ η ≤ 1 := by
  filter_upwards [self_mem_nhdsWithin, nhdsWithin_le_nhds (Iic_mem_nhds (show (0 : ℝ) < 1 by norm_num))] with η h0 h1
  exact ⟨h0, h1⟩

theorem abel_limit {σ : Type} (d : σ → ℕ) (f : σ → ℂ) (hf : Summable fun l => ‖f l‖) (g : ℝ → ℂ) (h : ∀ η : ℝ, 0 < η → η ≤ 1 → HasSum (fun l => (((1 - η) ^ d l : ℝ) : ℂ) * f l) (g η)) :
    Filter.Tendsto g (𝓝[>] 0) (𝓝 (∑' l, f l)) := by
  have ht : Filter.Tendsto (fun η : ℝ => ∑' l, (((1 - η) ^ d l : ℝ) : ℂ) * f l) (𝓝[>] 0) (𝓝 (∑' l, f l)) := by
    refine tendsto_tsum_of_dominated_convergence hf (fun l => ?_) ?_
    · have hc : Continuous fun η : ℝ => (((1 - η) ^ d l : ℝ) : ℂ) * f l := by fun_prop
      have := hc.tendsto 0
      simp only [sub_zero, one_pow, Complex.ofReal_one, one_mul] at this
      exact this.mono_left nhdsWithin_le_nhds
    · filter_upwards [small_pos] with η hη l
      rw [norm_mul, Complex.norm_real, Real.norm_of_nonneg (pow_nonneg (by linarith) _)]
      exact mul_le_of_le_one_left (norm_nonneg _) (pow_le_one₀ (by linarith) (by linarith))
  refine ht.congr' ?_
  filter_upwards [small_pos] with η hη
  exact (h η hη.1 hη.2).tsum_eq

/-- Abel summation with an integrable majorant -/
theorem abel_dominated {σ : Type} (d : σ → ℕ) (f : σ → ℂ) (hf : Summable fun l => ‖f l‖) (g : ℝ → ℂ) (L : ℂ) (h : ∀ η : ℝ, 0 < η → η ≤ 1 → HasSum (fun l => (((1 - η) ^ d l : ℝ) : ℂ) * f l) (g η))
    (hg : Filter.Tendsto g (𝓝[>] 0) (𝓝 L)) : HasSum f L := by
  rw [← tendsto_nhds_unique (abel_limit d f hf g h) hg]
  exact hf.of_norm.hasSum

/-- Abel summation with nonnegative terms -/
theorem abel_nonneg {σ : Type} (d : σ → ℕ) (f : σ → ℂ) (p : σ → ℝ) (hp : ∀ l, 0 ≤ p l) (hfp : ∀ l, f l = p l) (g : ℝ → ℂ) (L : ℂ) (h : ∀ η : ℝ, 0 < η → η ≤ 1 → HasSum (fun l => (((1 - η) ^ d l : ℝ) : ℂ) * f l) (g η))
    (hg : Filter.Tendsto g (𝓝[>] 0) (𝓝 L)) : HasSum f L := by
  refine abel_dominated d f ?_ g L h hg
  have e : ∀ l, ‖f l‖ = p l := fun l => by rw [hfp, Complex.norm_real, Real.norm_of_nonneg (hp l)]
  refine (summable_of_sum_le (c := L.re) hp fun s => ?_).congr fun l => (e l).symm
  have hc : Continuous fun η : ℝ => ∑ l ∈ s, (1 - η) ^ d l * p l := by fun_prop
  have h1 := (hc.tendsto 0).mono_left (nhdsWithin_le_nhds (s := Set.Ioi 0))
  simp only [sub_zero, one_pow, one_mul] at h1
  refine le_of_tendsto_of_tendsto h1 ((Complex.continuous_re.tendsto L).comp hg) ?_
  filter_upwards [small_pos] with η hη
  have h2 := Complex.hasSum_re (h η hη.1 hη.2)
  have h3 : ∀ l, ((((1 - η) ^ d l : ℝ) : ℂ) * f l).re = (1 - η) ^ d l * p l := fun l => by rw [hfp, ← Complex.ofReal_mul, Complex.ofReal_re]
  simp only [h3] at h2
  exact sum_le_hasSum s (fun l _ => mul_nonneg (pow_nonneg (by linarith) _) (hp l)) h2

theorem inv_tendsto_one {n : Type} [Fintype n] [DecidableEq n] (M : Matrix n n ℂ) : Filter.Tendsto (fun η : ℝ => (1 + (η : ℂ) • M)⁻¹) (𝓝[>] 0) (𝓝 1) := by
  have h1 : Continuous fun η : ℝ => (1 : Matrix n n ℂ) + (η : ℂ) • M := by fun_prop
  have h2 : Filter.Tendsto (fun η : ℝ => ((1 : Matrix n n ℂ) + (η : ℂ) • M).det) (𝓝 0) (𝓝 1) := by
    have := (h1.matrix_det).tendsto 0
    simpa using this
  have h3 : Filter.Tendsto (fun η : ℝ => ((1 : Matrix n n ℂ) + (η : ℂ) • M).adjugate) (𝓝 0) (𝓝 1) := by
    have := (h1.matrix_adjugate).tendsto 0
    simpa using this
  have h4 := (h2.inv₀ one_ne_zero).smul h3
  rw [inv_one, one_smul] at h4
  refine (h4.mono_left nhdsWithin_le_nhds).congr fun η => ?_
  rw [Matrix.inv_def, Ring.inverse_eq_inv']

theorem ladderWt_bound {ρ : (Fin N → ℕ) → (Fin N → ℕ) → ℂ} (hp : IsPsd ρ) (i j l : Fin N → ℕ) :
    ‖(ladderWt i j l : ℂ) * ρ (i + l) (j + l)‖ ≤ ‖(ladderWt i i l : ℂ) * ρ (i + l) (i + l)‖ + ‖(ladderWt j j l : ℂ) * ρ (j + l) (j + l)‖ := by
  have hsplit : ∀ i j : Fin N → ℕ, ladderWt i j l = (∏ k, Real.sqrt ((i k + l k).factorial : ℝ) / Real.sqrt ((l k).factorial : ℝ)) * ∏ k, Real.sqrt ((j k + l k).factorial : ℝ) / Real.sqrt ((l k).factorial : ℝ) := fun i j => by
    rw [ladderWt, ← Finset.prod_mul_distrib]
    refine Finset.prod_congr rfl fun k _ => ?_
    rw [Real.sqrt_mul (by positivity), div_mul_div_comm, Real.mul_self_sqrt (by positivity)]
  have hd : ∀ i : Fin N → ℕ, ‖(ladderWt i i l : ℂ) * ρ (i + l) (i + l)‖ = (∏ k, Real.sqrt ((i k + l k).factorial : ℝ) / Real.sqrt ((l k).factorial : ℝ)) ^ 2 * (ρ (i + l) (i + l)).re := fun i => by
    rw [norm_mul, Complex.norm_real, Real.norm_of_nonneg (ladderWt_nonneg _ _ _), (hp.diag _).2, Complex.norm_real, Real.norm_of_nonneg (hp.diag _).1, Complex.ofReal_re, hsplit, sq]
  rw [hd, hd, norm_mul, Complex.norm_real, Real.norm_of_nonneg (ladderWt_nonneg _ _ _), hsplit]
  exact psd_weight hp _ _ _ _ (Finset.prod_nonneg fun k _ => by positivity) (Finset.prod_nonneg fun k _ => by positivity)

theorem cov_limit {cov : ℕ → ℕ → ℝ} (hsym : ∀ i < 2 * N, ∀ j < 2 * N, cov i j = cov j i) (A : ℝ → ℕ → ℕ → ℂ)
    (hA : ∀ η : ℝ, 0 < η ∧ η ≤ 1 → phase N N (A η) = (phase N N (Qmat N cov hbar) - 1) * (1 + (η : ℂ) • (phase N N (Qmat N cov hbar) - 1))⁻¹ * fromBlocks 0 1 1 0) :
    ∀ k < 2 * N, ∀ m < 2 * N, Filter.Tendsto (fun η => A η k m) (𝓝[>] 0) (𝓝 (ladderCov N cov hbar 1 k m)) := by
  intro k hk m hm
  have hlc : (phase N N (Qmat N cov hbar) - 1) * 1 * fromBlocks 0 1 1 0 = phase N N (ladderCov N cov hbar 1) := by
    rw [Matrix.mul_one, ← phase_Xmat, ← phase_eye]
    have : phase N N (Qmat N cov hbar) - phase N N (eye : ℕ → ℕ → ℂ) = phase N N (fun i j => Qmat N cov hbar i j - (((1 / 2 : ℝ) * ((1 : ℝ) + 1) : ℝ) : ℂ) * eye i j) := by
      ext p q
      have : (((1 / 2 : ℝ) * ((1 : ℝ) + 1) : ℝ) : ℂ) = 1 := by norm_num
      simp only [phase, Matrix.of_apply, Matrix.sub_apply, this, one_mul]
    rw [this, ← phase_mmul, phase_ext_iff]
    exact fun i hi j hj => code_ladderCov N cov hbar 1 hsym i j hi hj
  have h1 : Filter.Tendsto (fun η : ℝ => (phase N N (Qmat N cov hbar) - 1) * (1 + (η : ℂ) • (phase N N (Qmat N cov hbar) - 1))⁻¹ * fromBlocks 0 1 1 0) (𝓝[>] 0) (𝓝 (phase N N (ladderCov N cov hbar 1))) := by
    rw [← hlc]
    exact (tendsto_const_nhds.mul (inv_tendsto_one _)).mul tendsto_const_nhds
  obtain ⟨p, rfl⟩ := exists_quad N k hk
  obtain ⟨q, rfl⟩ := exists_quad N m hm
  have h2 := (tendsto_pi_nhds.mp (tendsto_pi_nhds.mp h1 p)) q
  refine h2.congr' ?_
  filter_upwards [small_pos] with η hη
  rw [← hA η hη]
  rfl

theorem moment_limit {cov : ℕ → ℕ → ℝ} (mu : ℕ → ℝ) (A : ℝ → ℕ → ℕ → ℂ) (γ : ℝ → ℕ → ℂ) (hAlim : ∀ k < 2 * N, ∀ m < 2 * N, Filter.Tendsto (fun η => A η k m) (𝓝[>] 0) (𝓝 (ladderCov N cov hbar 1 k m)))
    (hγ : ∀ η : ℝ, 0 < η ∧ η ≤ 1 → ∀ k, γ η k = (starRingEnd ℂ) (complexToReal N mu hbar k) - (η : ℂ) * dot (2 * N) (A η k) (complexToReal N mu hbar)) (i j : Fin N → ℕ) :
    Filter.Tendsto (fun η => lh (γ η) (A η) (repeatedIndices (List.ofFn j ++ List.ofFn i))) (𝓝[>] 0) (𝓝 (moment N mu cov hbar 1 (repeatedIndices (List.ofFn j ++ List.ofFn i)))) := by
  have hγlim : ∀ k < 2 * N, Filter.Tendsto (fun η => γ η k) (𝓝[>] 0) (𝓝 (ladderMean N mu hbar k)) := by
    intro k hk
    have h1 : Filter.Tendsto (fun η : ℝ => (starRingEnd ℂ) (complexToReal N mu hbar k) - (η : ℂ) * ∑ m ∈ Finset.range (2 * N), A η k m * complexToReal N mu hbar m) (𝓝[>] 0)
        (𝓝 ((starRingEnd ℂ) (complexToReal N mu hbar k) - ((0 : ℝ) : ℂ) * ∑ m ∈ Finset.range (2 * N), ladderCov N cov hbar 1 k m * complexToReal N mu hbar m)) := by
      refine tendsto_const_nhds.sub (Filter.Tendsto.mul ((Complex.continuous_ofReal.tendsto 0).mono_left nhdsWithin_le_nhds) (tendsto_finsetSum _ fun m hm => ?_))
      exact (hAlim k hk m (Finset.mem_range.mp hm)).mul_const _
    rw [Complex.ofReal_zero, zero_mul, sub_zero, code_ladderMean] at h1
    refine h1.congr' ?_
    filter_upwards [small_pos] with η hη
    rw [hγ η hη k, dot_sum, code_ladderMean]
  rw [moment_lh]
  have hlt : ∀ x ∈ repeatedIndices (List.ofFn j ++ List.ofFn i), x < 2 * N := fun x hx => by
    have := repeatedIndices_lt hx
    simp at this
    omega
  exact lh_tendsto _ _ _ _ _ _ le_rfl (fun k hk => hγlim k (hlt k hk)) fun k hk m hm => hAlim k (hlt k hk) m (hlt m hm)

theorem ladderWt_zero (l : Fin N → ℕ) : ladderWt 0 0 l = 1 := by
  refine Finset.prod_eq_one fun k _ => ?_
  rw [Pi.zero_apply, zero_add, Real.sqrt_mul_self (by positivity), div_self (by positivity)]

theorem moments_core {I σ : Type} (o : I) (d : σ → ℕ) (f : I → I → σ → ℂ) (htr : HasSum (f o o) 1) (pref : ℝ → ℂ) (w : ℝ → I → I → ℂ) (m : I → I → ℂ)
    (h0 : ∀ η, w η o o = 1) (hlim : ∀ i j, Filter.Tendsto (fun η => w η i j) (𝓝[>] 0) (𝓝 (m i j))) (p : I → σ → ℝ) (hp : ∀ i l, 0 ≤ p i l) (hfp : ∀ i l, f i i l = p i l)
    (hb : ∀ i j l, ‖f i j l‖ ≤ ‖f i i l‖ + ‖f j j l‖)
    (hs : ∀ η : ℝ, 0 < η → η ≤ 1 → ∀ i j, HasSum (fun l => (((1 - η) ^ d l : ℝ) : ℂ) * f i j l) (pref η * w η i j)) (i j : I) :
    HasSum (f i j) (m i j) := by
  have hpref : Filter.Tendsto pref (𝓝[>] 0) (𝓝 1) := by
    have h := abel_limit d (f o o) htr.summable.norm pref fun η h1 h2 => by
      have := hs η h1 h2 o o
      rw [h0, mul_one] at this
      exact this
    rwa [htr.tsum_eq] at h
  have htot : ∀ i j, Filter.Tendsto (fun η => pref η * w η i j) (𝓝[>] 0) (𝓝 (m i j)) := by
    intro i j
    have := hpref.mul (hlim i j)
    rwa [one_mul] at this
  have hdiag : ∀ i, HasSum (f i i) (m i i) := fun i =>
    abel_nonneg d (f i i) (p i) (hp i) (hfp i) (fun η => pref η * w η i i) (m i i) (fun η h0 h1 => hs η h0 h1 i i) (htot i i)
  refine abel_dominated d (f i j) ?_ (fun η => pref η * w η i j) (m i j) (fun η h0 h1 => hs η h0 h1 i j) (htot i j)
  exact Summable.of_nonneg_of_le (fun _ => norm_nonneg _) (fun l => hb i j l) ((hdiag i).summable.norm.add (hdiag j).summable.norm)

/-- the terms of `tr(ρ ∏ a†^j ∏ a^i)` -/
theorem fock_moments (hh : 0 < hbar) (mu : ℕ → ℝ) (cov : ℕ → ℕ → ℝ) (hph : Physical (phase N N cov) hbar) (ρ : (Fin N → ℕ) → (Fin N → ℕ) → ℂ) (hρ : IsFockMatrix N mu cov hbar ρ) (i j : Fin N → ℕ) :
    HasSum (fun l : Fin N → ℕ => (ladderWt i j l : ℂ) * ρ (i + l) (j + l)) (moment N mu cov hbar 1 (repeatedIndices (List.ofFn j ++ List.ofFn i))) := by
  have hsc := fun (η : ℝ) (h : 0 < η ∧ η ≤ 1) => loss_scaled hh mu cov hph ρ hρ η h.1 h.2
  choose! A γ pref hA hγ hs using hsc
  have hpsd := fock_isPsd hh hph hρ
  refine moments_core (0 : Fin N → ℕ) (fun l : Fin N → ℕ => ∑ k, l k) (fun i j l => (ladderWt i j l : ℂ) * ρ (i + l) (j + l)) ?_ pref (fun η i j => lh (γ η) (A η) (repeatedIndices (List.ofFn j ++ List.ofFn i)))
    (fun i j => moment N mu cov hbar 1 (repeatedIndices (List.ofFn j ++ List.ofFn i))) (fun η => ?_) (fun i j => moment_limit mu A γ (cov_limit (physical_sym hph) A hA) hγ i j)
    (fun i l => ladderWt i i l * (ρ (i + l) (i + l)).re) (fun i l => mul_nonneg (ladderWt_nonneg _ _ _) (hpsd.diag _).1) (fun i l => ?_) (fun i j l => ladderWt_bound hpsd i j l) (fun η h0 h1 => hs η ⟨h0, h1⟩) i j
  · simp only [ladderWt_zero, Complex.ofReal_one, one_mul, zero_add]
    exact fockMatrix_trace hh hph hρ
  · have : repeatedIndices (List.ofFn (0 : Fin N → ℕ) ++ List.ofFn (0 : Fin N → ℕ)) = [] := by
      rw [← List.length_eq_zero_iff, repeatedIndices_length, List.sum_append, List.sum_ofFn]
      simp
    rw [this, lh_nil]
  · rw [Complex.ofReal_mul, ← (hpsd.diag (i + l)).2]

end Verif.Props
