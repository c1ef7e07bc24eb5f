/-
C72: the density matrix of a Gaussian state is positive semi-definite, and `probabilities` returns its diagonal.
-/
import Verif.Props.FockPure
import Verif.Lemmas.Fischer
import Verif.Props.RefMontrealer
import Mathlib.Data.List.GetD
import Mathlib.Analysis.Matrix.Order
import Mathlib.LinearAlgebra.Matrix.SchurComplement

set_option linter.unusedSectionVars false
set_option linter.unusedSimpArgs false

namespace Verif.Props
open Verif.Model Verif.Model.Symp Verif.Model.Conv Verif.Model.Fock Verif.Spec Verif.Lemmas Verif.Lemmas.Symp Verif.Lemmas.FockS Verif.Lemmas.Chol Verif.Lemmas.Fischer Matrix
open scoped ComplexOrder

variable {N : ℕ} {cov : ℕ → ℕ → ℝ} {hbar : ℝ}

theorem U_conj' : Um N * (Um N)ᴴ = (2 : ℂ) • 1 := by
  simp only [Um]
  rw [fromBlocks_conjTranspose, fromBlocks_multiply]
  ext p q
  rcases p with p | p <;> rcases q with q | q <;> simp [Matrix.one_apply, smul_smul] <;> split_ifs <;> norm_num

/-- the uncertainty relation for the matrix `Q` -/
theorem Q_ge (hph : Physical (phase N N cov) hbar) (hh : 0 < hbar) : (phase N N (Qmat N cov hbar) - fromBlocks 1 0 0 0).PosSemidef := by
  have hsym := physical_sym hph
  have hQU := Q_mul_U (N := N) hsym hh
  have hZU := Z_mul_U (N := N)
  have hJ : omega N = -(Matrix.J (Fin N) ℝ).map Complex.ofReal := by
    unfold omega Matrix.J
    rw [fromBlocks_map]
    congr 2 <;> ext i j <;> by_cases h : i = j <;> simp [h, Matrix.one_apply]
  set Q := phase N N (Qmat N cov hbar)
  set W := (Wmat N cov hbar).map Complex.ofReal with hW
  set J := (Matrix.J (Fin N) ℝ).map Complex.ofReal
  have h1 := hph.2
  have h2 : (phase N N cov).map Complex.ofReal + (Complex.I * (hbar / 2 : ℝ)) • omega N = (hbar : ℂ) • (W - (1 / 2 : ℂ) • 1 - (1 / 2 : ℂ) • (Complex.I • J)) := by
    have hb : (hbar : ℂ) ≠ 0 := by exact_mod_cast hh.ne'
    rw [hJ, hW]
    ext p q
    simp only [Wmat, Matrix.add_apply, Matrix.sub_apply, Matrix.map_apply, Matrix.smul_apply, Matrix.neg_apply, smul_eq_mul]
    by_cases hpq : p = q
    · subst hpq
      simp only [Matrix.one_apply_eq]
      push_cast
      field_simp
      ring
    · simp only [Matrix.one_apply_ne hpq]
      push_cast
      field_simp
      ring
  rw [h2] at h1
  have h3 := h1.smul (show (0 : ℂ) ≤ ((1 / hbar / 2 : ℝ) : ℂ) from Complex.zero_le_real.mpr (by positivity))
  rw [smul_smul] at h3
  have hb : (((1 / hbar / 2 : ℝ) : ℂ) * (hbar : ℂ)) = 1 / 2 := by
    have : (hbar : ℂ) ≠ 0 := by exact_mod_cast hh.ne'
    push_cast
    field_simp
  rw [hb] at h3
  have h4 := h3.mul_mul_conjTranspose_same (Um N)
  have e : Um N * ((1 / 2 : ℂ) • (W - (1 / 2 : ℂ) • 1 - (1 / 2 : ℂ) • (Complex.I • J))) * (Um N)ᴴ = Q - (1 / 2 : ℂ) • 1 - (1 / 2 : ℂ) • Zs N := by
    have a1 : Um N * W * (Um N)ᴴ = (2 : ℂ) • Q := by rw [← hQU, Matrix.mul_assoc, U_conj', Matrix.mul_smul, Matrix.mul_one]
    have a2 : Um N * (Complex.I • J) * (Um N)ᴴ = (2 : ℂ) • Zs N := by rw [← hZU, Matrix.mul_assoc, U_conj', Matrix.mul_smul, Matrix.mul_one]
    rw [Matrix.mul_smul, Matrix.mul_sub, Matrix.mul_sub, Matrix.mul_smul, Matrix.mul_one, Matrix.mul_smul, Matrix.smul_mul, Matrix.sub_mul, Matrix.sub_mul, Matrix.smul_mul,
      Matrix.smul_mul, a1, a2, U_conj']
    simp only [smul_sub, smul_smul]
    norm_num
  rw [e] at h4
  have e2 : Q - fromBlocks 1 0 0 0 = Q - (1 / 2 : ℂ) • 1 - (1 / 2 : ℂ) • Zs N := by
    rw [sub_sub]
    congr 1
    ext p q
    rcases p with p | p <;> rcases q with q | q <;> simp [Zs, Matrix.one_apply] <;> split_ifs <;> norm_num
  rw [e2]
  exact h4

/-- the off-diagonal block of `A` is positive semi-definite -/
theorem crossBlock_posSemidef (hph : Physical (phase N N cov) hbar) (hh : 0 < hbar) (A : ℕ → ℕ → ℂ)
    (hAQ : phase N N A * phase N N (Xmat N) = 1 - (phase N N (Qmat N cov hbar))⁻¹) : (Matrix.of fun i j : Fin N => A i (N + j)).PosSemidef := by
  have hsym := physical_sym hph
  have hdet := det_W_pos hph hh
  have hge := Q_ge hph hh
  set Q := phase N N (Qmat N cov hbar) with hQ
  have hQu : IsUnit Q.det := by rw [hQ, det_Q hsym hh, isUnit_iff_ne_zero, Complex.ofReal_ne_zero]; exact hdet.ne'
  let F : Matrix (Fin N ⊕ Fin N) (Fin N) ℂ := Matrix.of (Sum.elim (fun i j => if i = j then 1 else 0) fun _ _ => 0)
  have hFF : F * Fᴴ = fromBlocks 1 0 0 0 := by
    ext p q
    rcases p with p | p <;> rcases q with q | q <;> simp [F, Matrix.mul_apply, Matrix.one_apply, apply_ite]
  have hQp : Q.PosDef := by
    have h1 : (Q - fromBlocks 1 0 0 0 + F * Fᴴ).PosSemidef := hge.add (posSemidef_self_mul_conjTranspose F)
    rw [hFF, sub_add_cancel] at h1
    exact h1.posDef_iff_isUnit.mpr ((isUnit_iff_isUnit_det _).mpr hQu)
  haveI : Invertible Q := Matrix.invertibleOfIsUnitDet Q hQu
  have h1 : (fromBlocks Q F Fᴴ 1).PosSemidef := by
    haveI : Invertible (1 : Matrix (Fin N) (Fin N) ℂ) := invertibleOne
    rw [PosDef.fromBlocks₂₂ Q F PosDef.one, inv_one, Matrix.mul_one, hFF]
    exact hge
  rw [PosDef.fromBlocks₁₁ F 1 hQp] at h1
  suffices hfin : (Matrix.of fun i j : Fin N => A i (N + j)) = 1 - Fᴴ * Q⁻¹ * F by
    rw [hfin]; exact h1
  ext i j
  have e := congrFun (congrFun hAQ (Sum.inl i)) (Sum.inl j)
  rw [phase_Xmat] at e
  have e1 : (phase N N A * (fromBlocks 0 1 1 0 : Matrix (Fin N ⊕ Fin N) (Fin N ⊕ Fin N) ℂ)) (Sum.inl i) (Sum.inl j) = A i (N + j) := by
    rw [Matrix.mul_apply, Fintype.sum_sum_type]
    simp only [fromBlocks_apply₁₁, fromBlocks_apply₂₁, Matrix.zero_apply, mul_zero, Finset.sum_const_zero, zero_add, Matrix.one_apply, mul_ite, mul_one, Finset.sum_ite_eq',
      Finset.mem_univ, if_true]
    rfl
  rw [e1] at e
  rw [of_apply, e]
  simp only [Matrix.sub_apply]
  congr 1
  · simp [Matrix.one_apply]
  · simp [F, Matrix.mul_apply, Fintype.sum_sum_type, Matrix.one_apply]

/-- the density matrix of a Gaussian state is a Gram matrix for the Fischer product -/
theorem fock_gram (mu : ℕ → ℝ) (hh : 0 < hbar) (hph : Physical (phase N N cov) hbar) :
    ∃ (ρ : (Fin N → ℕ) → (Fin N → ℕ) → ℂ) (pref : ℝ) (P : (Fin N → ℕ) → MvPolynomial (Fin N) ℂ), 0 < pref ∧ IsFockMatrix N mu cov hbar ρ ∧
      ∀ i j, ρ i j = (pref : ℂ) * fis (MvPolynomial.map (starRingEnd ℂ) (P i)) (P j) := by
  obtain ⟨A, γ, pref, hA, hAt, hAQ, hγ, hγ0, hp, hpref, hF, hρ⟩ := fock_setup mu hh hph
  have hsym := physical_sym hph
  have hdet := det_W_pos hph hh
  have hQdet : (phase N N (Qmat N cov hbar)).det ≠ 0 := by rw [det_Q hsym hh, Complex.ofReal_ne_zero]; exact hdet.ne'
  obtain ⟨A', hA', -, hAc, -, -⟩ := Amat_correct N cov hbar hsym hQdet
  obtain rfl : A' = A := Except.ok.inj (hA'.symm.trans hA)
  have hpsd := crossBlock_posSemidef hph hh A' hAQ
  obtain ⟨B, hB⟩ : ∃ B : Matrix (Fin N) (Fin N) ℂ, (Matrix.of fun i j : Fin N => A' i (N + j)) = Bᴴ * B := by
    open scoped MatrixOrder in
    obtain ⟨B, hB⟩ := CStarAlgebra.nonneg_iff_eq_star_mul_self.mp hpsd.nonneg
    exact ⟨B, hB⟩
  set β := complexToReal N mu hbar with hβ
  have hβc : ∀ k < N, β (N + k) = (starRingEnd ℂ) (β k) := fun k hk => (complexToReal_entries N mu hbar k hk).2
  have hdot : ∀ f g : ℕ → ℂ, dot (2 * N) f g = dot N f g + dot N (fun k => f (N + k)) fun k => g (N + k) := by
    intro f g
    rw [dot_sum, dot_sum, dot_sum, two_mul, Finset.sum_range_add]
  have hγ2 : ∀ k < N, γ (N + k) = (starRingEnd ℂ) (γ k) := by
    intro k hk
    have e1 : γ (N + k) = (starRingEnd ℂ) (β (N + k)) - dot (2 * N) (A' (N + k)) β := by rw [hγ]
    have e2 : γ k = (starRingEnd ℂ) (β k) - dot (2 * N) (A' k) β := by rw [hγ]
    rw [e1, e2, hdot, hdot, hβc k hk, map_sub, map_add, dot_sum, dot_sum, dot_sum, dot_sum, map_sum, map_sum, add_comm (∑ l ∈ Finset.range N, A' (N + k) l * β l)]
    congr 2
    · refine Finset.sum_congr rfl fun l hl => ?_
      have hl := Finset.mem_range.mp hl
      rw [map_mul, (hAc k hk l hl).1, hβc l hl]
    · refine Finset.sum_congr rfl fun l hl => ?_
      have hl := Finset.mem_range.mp hl
      rw [map_mul, (hAc k hk l hl).2.1, (hAc k hk l hl).2.2, hβc l hl, Complex.conj_conj, Complex.conj_conj]
  let d : ℕ → Fin N → ℂ := fun x a => if h : x < N then (starRingEnd ℂ) (B a ⟨x, h⟩) else 0
  let e : ℕ → Fin N → ℂ := fun y a => if h : y - N < N then B a ⟨y - N, h⟩ else 0
  let P : (Fin N → ℕ) → MvPolynomial (Fin N) ℂ := fun i =>
    MvPolynomial.C ((Real.sqrt (∏ k, ((i k).factorial : ℝ)) : ℝ) : ℂ)⁻¹ * lh (Lemmas.Fischer.wt γ d) (fun a b => MvPolynomial.C (A' a b)) (repeatedIndices (List.ofFn i))
  refine ⟨_, pref, P, hp, hF, fun i j => ?_⟩
  rw [hρ, repeatedIndices_append, List.length_ofFn, lh_fischer γ A' d e]
  · have hq : lh (Lemmas.Fischer.wt γ e) (fun a b => MvPolynomial.C (A' a b)) ((repeatedIndices (List.ofFn i)).map (N + ·)) =
        MvPolynomial.map (starRingEnd ℂ) (lh (Lemmas.Fischer.wt γ d) (fun a b => MvPolynomial.C (A' a b)) (repeatedIndices (List.ofFn i))) := by
      rw [lh_ringHom, lh_map]
      have hlt : ∀ x ∈ repeatedIndices (List.ofFn i), x < N := fun x hx => by have := repeatedIndices_lt hx; simpa using this
      refine lh_congr (fun x hx => ?_) fun x hx y hy => ?_
      · have hx' := hlt x hx
        simp only [Function.comp, Lemmas.Fischer.wt, map_add, map_sum, map_mul, MvPolynomial.map_C, MvPolynomial.map_X, hγ2 x hx', d, e, dif_pos hx', Nat.add_sub_cancel_left,
          Complex.conj_conj]
      · simp only [MvPolynomial.map_C, (hAc x (hlt x hx) y (hlt y hy)).1]
    rw [hq]
    simp only [P, map_mul, MvPolynomial.map_C]
    rw [fis_left_C, fis_C_mul, map_inv₀, Complex.conj_ofReal, Real.sqrt_mul (by positivity)]
    push_cast
    field_simp
  · intro x hx y hy
    obtain ⟨y', hy', rfl⟩ := List.mem_map.mp hy
    have hx' : x < N := by have := repeatedIndices_lt hx; simpa using this
    have hy'' : y' < N := by have := repeatedIndices_lt hy'; simpa using this
    have := congrFun (congrFun hB ⟨x, hx'⟩) ⟨y', hy''⟩
    rw [of_apply, Matrix.mul_apply] at this
    simp only at this
    rw [this]
    refine Finset.sum_congr rfl fun a _ => ?_
    simp only [d, e, dif_pos hx', Nat.add_sub_cancel_left, dif_pos hy'', conjTranspose_apply]
    rfl

/-- C72. The density matrix of a Gaussian state is positive semi-definite: `Σ_{i,j ∈ S} conj(w_i) ρ_ij w_j ≥ 0` for every finite superposition `w` of Fock states. -/
theorem fockMatrix_posSemidef {mu : ℕ → ℝ} (hh : 0 < hbar) (hph : Physical (phase N N cov) hbar) {ρ : (Fin N → ℕ) → (Fin N → ℕ) → ℂ}
    (hρ : IsFockMatrix N mu cov hbar ρ) (S : Finset (Fin N → ℕ)) (w : (Fin N → ℕ) → ℂ) :
    ∃ r : ℝ, 0 ≤ r ∧ ∑ i ∈ S, ∑ j ∈ S, (starRingEnd ℂ) (w i) * ρ i j * w j = r := by
  obtain ⟨ρ', pref, P, hp, hF, h⟩ := fock_gram (N := N) mu hh hph
  obtain rfl := fockMatrix_unique hρ hF
  obtain ⟨r, hr, e⟩ := fis_conj_nonneg (∑ j ∈ S, MvPolynomial.C (w j) * P j)
  refine ⟨pref * r, mul_nonneg hp.le hr, ?_⟩
  push_cast
  rw [← e, map_sum, map_sum]
  have e2 : ∀ q : (Fin N → ℕ) → MvPolynomial (Fin N) ℂ, ∀ p, fis (∑ i ∈ S, q i) p = ∑ i ∈ S, fis (q i) p := by
    intro q p
    clear e
    induction S using Finset.induction_on with
    | empty => simp [fis_zero]
    | insert a S ha ih => rw [Finset.sum_insert ha, Finset.sum_insert ha, fis_add, ih]
  simp only [e2, fis_left_C, map_mul, MvPolynomial.map_C, fis_C_mul, Finset.mul_sum]
  rw [Finset.sum_comm]
  refine Finset.sum_congr rfl fun j _ => Finset.sum_congr rfl fun i _ => ?_
  rw [h]
  ring

/-- the diagonal elements of the density matrix are probabilities: real and non-negative -/
theorem fockMatrix_diag {mu : ℕ → ℝ} (hh : 0 < hbar) (hph : Physical (phase N N cov) hbar) {ρ : (Fin N → ℕ) → (Fin N → ℕ) → ℂ}
    (hρ : IsFockMatrix N mu cov hbar ρ) (n : Fin N → ℕ) : ∃ r : ℝ, 0 ≤ r ∧ ρ n n = r := by
  obtain ⟨r, hr, e⟩ := fockMatrix_posSemidef hh hph hρ {n} fun _ => 1
  refine ⟨r, hr, ?_⟩
  simpa using e

/-- C72. `probabilities` returns, in both branches (pure or mixed) and whether or not it is run in parallel, the photon-number probabilities: entry `n` is the
diagonal element `⟨n|ρ|n⟩`, which is real and non-negative.  The purity test may use any tolerance under which only pure states pass; the displacement must be
zero or above the tolerance of the code. -/
theorem probabilities_correct {sjunk : ℕ → ℂ} (hN : N ≠ 0) (closeR : ℝ → ℝ → Bool) (mu : ℕ → ℝ) (cov : ℕ → ℕ → ℝ) (hbar atol : ℝ) (hh : 0 < hbar)
    (hph : Physical (phase N N cov) hbar) (hcp : Checks.isPureCov closeR (2 * N) (2 * N) cov hbar atol = true → ((2 / hbar) • phase N N cov).det = 1)
    (htol : (∀ i < 2 * N, mu i = 0) ∨ 1 / 10 ^ 10 ≤ Real.sqrt ((∑ i ∈ Finset.range (2 * N), mu i ^ 2) / (2 * hbar))) :
    ∃ (ρ : (Fin N → ℕ) → (Fin N → ℕ) → ℂ), IsFockMatrix N mu cov hbar ρ ∧ (∀ n, 0 ≤ (ρ n n).re ∧ (ρ n n).im = 0) ∧
      ∀ (cutoff : ℕ) (parallel : Bool), 0 < cutoff → cutoff ≤ 1000 →
        ∃ P, probabilities (sqrtTable sjunk) (isClose 0 0) closeR N mu cov cutoff parallel hbar atol = .ok P ∧
          ∀ n : Fin N → ℕ, (∀ k, n k < cutoff) → ((P (List.ofFn n) : ℝ) : ℂ) = ρ n n := by
  have htol2 : (∀ i < 2 * N, mu i = 0) ∨ 1 / 10 ^ 10 ≤ Real.sqrt ((∑ i ∈ Finset.range (2 * N), mu i ^ 2) / hbar) := by
    refine htol.imp_right fun h => h.trans (Real.sqrt_le_sqrt ?_)
    have h0 : 0 ≤ ∑ i ∈ Finset.range (2 * N), mu i ^ 2 := Finset.sum_nonneg fun _ _ => sq_nonneg _
    apply div_le_div_of_nonneg_left h0 hh
    linarith
  obtain ⟨ρ, hF, hdme⟩ := densityMatrixElement_correct hN mu cov hbar (1 / 10 ^ 10) hh hph htol2
  have hdiag := fockMatrix_diag hh hph hF
  have hreal : ∀ n, 0 ≤ (ρ n n).re ∧ (ρ n n).im = 0 := by
    intro n
    obtain ⟨r, hr, e⟩ := hdiag n
    rw [e]
    exact ⟨by simpa using hr, by simp⟩
  have hmax : ∀ n, ((maxReal (ρ n n) : ℝ) : ℂ) = ρ n n := by
    intro n
    obtain ⟨r, hr, e⟩ := hdiag n
    rw [e, maxReal, Complex.ofReal_re, max_eq_right hr]
  refine ⟨ρ, hF, hreal, fun cutoff parallel hc hc2 => ?_⟩
  have hmem : ∀ n : Fin N → ℕ, (∀ k, n k < cutoff) → List.ofFn n ∈ ndindex (List.replicate N cutoff) := by
    intro n hn
    rw [mem_ndindex_replicate]
    refine ⟨List.length_ofFn, fun x hx => ?_⟩
    obtain ⟨k, rfl⟩ := (List.mem_ofFn' n x).mp hx
    exact hn k
  let v : List ℕ → ℂ := fun l => ρ (fun k => l.getD k 0) fun k => l.getD k 0
  have hv : ∀ idx ∈ ndindex (List.replicate N cutoff), densityMatrixElement (isClose 0 0) N mu cov idx idx true (1 / 10 ^ 10) hbar = .ok (v idx) := by
    intro idx hidx
    have hl := ((mem_ndindex_replicate N cutoff idx).mp hidx).1
    have e : idx = List.ofFn fun k : Fin N => idx.getD k 0 := by
      apply List.ext_getElem
      · rw [List.length_ofFn, hl]
      · intro a h1 h2
        rw [List.getElem_ofFn, List.getD_eq_getElem]
    conv_lhs => rw [e]
    exact hdme _ _
  have hvn : ∀ n : Fin N → ℕ, v (List.ofFn n) = ρ n n := by
    intro n
    have : (fun k : Fin N => (List.ofFn n).getD k 0) = n := by
      funext k
      rw [List.getD_eq_getElem _ _ (by rw [List.length_ofFn]; exact k.2), List.getElem_ofFn]
    simp only [v, this]
  unfold probabilities
  by_cases hp : Checks.isPureCov closeR (2 * N) (2 * N) cov hbar atol = true
  · rw [if_pos hp]
    obtain ⟨ψ, hψ, -, hsv⟩ := pureState_correct (sjunk := sjunk) hN closeR mu cov hbar (1 / 10 ^ 10) atol hh hph (hcp hp) false (by simp) (by rwa [max_self])
    obtain ⟨T, hT, hTv⟩ := hsv none false cutoff (by simp) (by simp) hc hc2
    obtain rfl := fockMatrix_unique hψ hF
    refine ⟨fun idx => ‖T idx‖ ^ 2, ?_, fun n hn => ?_⟩
    · rw [hT]; rfl
    · have := hTv n (by intro p hp; simp at hp) (fun m _ => hn m)
      rw [if_neg (by simp)] at this
      have e : (freeModes N ((none : Option (List (ℕ × ℕ))).getD [])).map n = List.ofFn n := by
        rw [Option.getD_none, freeModes_nil, List.ofFn_eq_map]
      rw [e] at this
      simp only
      rw [this, ← Complex.normSq_eq_norm_sq, Complex.normSq_eq_conj_mul_self, mul_comm]
  · rw [if_neg hp]
    cases parallel
    · rw [if_neg (by simp)]
      obtain ⟨T, hT, hTv, -⟩ := foldlM_update (K := ℝ) (ndindex (List.replicate N cutoff)) id
        (fun idx => (densityMatrixElement (isClose 0 0) N mu cov idx idx true (1 / 10 ^ 10) hbar).map maxReal) (fun idx => maxReal (v idx))
        (fun idx hidx => by rw [hv idx hidx]; rfl) (fun a _ b _ h => by rw [id, id] at h; rw [h]) fun _ => 0
      refine ⟨T, ?_, fun n hn => ?_⟩
      · rw [← hT]
        congr 1
        funext T idx
        cases densityMatrixElement (isClose 0 0) N mu cov idx idx true (1 / 10 ^ 10) hbar <;> rfl
      · rw [← hmax, ← hvn]
        exact congrArg Complex.ofReal (hTv _ (hmem n hn))
    · rw [if_pos rfl, mapM_ok' _ _ v hv]
      refine ⟨_, rfl, fun n hn => ?_⟩
      rw [← hmax, ← hvn]
      have hi := List.idxOf_lt_length_of_mem (hmem n hn)
      rw [List.map_map, List.getD_eq_getElem _ _ (by rw [List.length_map]; exact hi), List.getElem_map, List.getElem_idxOf hi]
      rfl

/-- the hypotheses of `probabilities_correct` hold for the vacuum of two modes and exact comparisons -/
example : Physical (phase 2 2 (vacuumState 2 2).cov) 2 ∧ ∀ closeR : ℝ → ℝ → Bool, (∀ x y, closeR x y = true ↔ x = y) →
    Checks.isPureCov closeR (2 * 2) (2 * 2) (vacuumState 2 2).cov 2 0 = true → ((2 / (2 : ℝ)) • phase 2 2 (vacuumState 2 (2 : ℝ)).cov).det = 1 := by
  refine ⟨?_, fun closeR hc h => ?_⟩
  · exact (physical_vacuum 2 2 (by norm_num)).1
  · obtain ⟨-, M, hM, -, hd⟩ := (isPureCov_exact closeR hc (2 * 2) (2 * 2) _ 2).mp h
    obtain rfl : M = 2 := by omega
    exact hd

end Verif.Props
