/-
C75: the photon-number amplitudes of the Gaussian state of a graph are hafnians of the adjacency matrix.
-/
import Verif.Props.Adjacency
import Verif.Props.FockPure

namespace Verif.Props
open Verif.Model Verif.Model.Fock Verif.Model.Symp Verif.Model.Conv Verif.Model.Means Verif.Model.Adj Verif.Spec Verif.Lemmas Verif.Lemmas.Symp Verif.Lemmas.FockS Verif.Lemmas.Graph Matrix
open scoped ComplexOrder

variable {N : ℕ}

theorem graph_det (M : Matrix (Fin N) (Fin N) ℂ) (hM : Mᵀ = M) (hP : (1 - Mᴴ * M).PosDef) (Q : ℕ → ℕ → ℂ) (hQ : phase N N Q = (Bm M)⁻¹)
    (hbar : ℝ) (hh : 0 < hbar) : ((Wmat N (Covmat N Q hbar) hbar).det : ℂ) = ((1 - Mᴴ * M).det)⁻¹ := by
  have hH := graph_husimi M hM Q hQ
  rw [← det_Q (Covmat_symm Q hbar hH) hh, Covmat_Q Q hbar hh hH, hQ, det_nonsing_inv, Ring.inverse_eq_inv']
  congr 1
  unfold Bm
  rw [det_fromBlocks_one₂₂]
  simp

/-- the density matrix of the state of a symmetric matrix of norm below one -/
theorem graph_fock (B : ℕ → ℕ → ℂ) (hM : (toMatrix N N B)ᵀ = toMatrix N N B) (hP : (1 - (toMatrix N N B)ᴴ * toMatrix N N B).PosDef) (Q : ℕ → ℕ → ℂ)
    (hQ : phase N N Q = (Bm (toMatrix N N B))⁻¹) (hbar : ℝ) (hh : 0 < hbar) (ρ : (Fin N → ℕ) → (Fin N → ℕ) → ℂ)
    (hρ : IsFockMatrix N (fun _ => 0) (Covmat N Q hbar) hbar ρ) (i j : Fin N → ℕ) :
    ρ i j = Spec.haf (repeatedMatrix B (List.ofFn i)) * (starRingEnd ℂ) (Spec.haf (repeatedMatrix B (List.ofFn j))) /
      ((Real.sqrt (Wmat N (Covmat N Q hbar) hbar).det * Real.sqrt (∏ k, ((i k).factorial : ℝ)) * Real.sqrt (∏ k, ((j k).factorial : ℝ)) : ℝ) : ℂ) := by
  have hph := graph_physical _ hM hP Q hQ hbar hh
  have hdetp := det_W_pos hph hh
  obtain ⟨A, γ, hA, -, -, hγ0, hF⟩ := pure_setup (fun _ => 0) hh hph (graph_pure _ hM hP Q hQ hbar hh)
  obtain ⟨A', hA', hAb⟩ := graph_Amat _ hM hP Q hQ hbar hh
  rw [hA] at hA'
  obtain rfl : A = A' := by injection hA'
  have hb0 : ∀ k < N, complexToReal N (fun _ => 0) hbar k = 0 := by
    intro k hk
    simp [complexToReal, hk]
  have hexp : pureExp N (fun _ => 0) hbar A = 0 := by
    unfold pureExp
    simp only [dot_sum, norm2]
    have e1 : ∀ k ∈ Finset.range N, complexToReal N (fun _ => 0) hbar k = 0 := fun k hk => hb0 k (Finset.mem_range.mp hk)
    have e2 : ∑ k ∈ Finset.range N, ‖complexToReal N (fun _ => 0) hbar k‖ * ‖complexToReal N (fun _ => 0) hbar k‖ = 0 :=
      Finset.sum_eq_zero fun k hk => by rw [e1 k hk]; simp
    simp only [e2]
    have e3 : ∀ f : ℕ → ℂ, ∑ k ∈ Finset.range N, complexToReal N (fun _ => 0) hbar k * f k = 0 := fun f =>
      Finset.sum_eq_zero fun k hk => by rw [e1 k hk, zero_mul]
    simp [e3]
  have hlt : ∀ (n : Fin N → ℕ), ∀ x ∈ repeatedIndices (List.ofFn n), x < N := by
    intro n x hx
    have := repeatedIndices_lt hx
    simpa using this
  have key : ∀ n : Fin N → ℕ, (starRingEnd ℂ) (lh γ A (repeatedIndices (List.ofFn n))) = Spec.haf (repeatedMatrix B (List.ofFn n)) := by
    intro n
    rw [spec_haf_repeated, lh_ringHom (starRingEnd ℂ)]
    apply lh_congr
    · intro x hx
      rw [hγ0 x (hlt n x hx) fun _ _ => rfl, map_zero]
    · intro x hx y hy
      have h1 := congrFun (congrFun hAb (Sum.inl ⟨x, hlt n x hx⟩)) (Sum.inl ⟨y, hlt n y hy⟩)
      have h2 := congrFun (congrFun hM ⟨x, hlt n x hx⟩) ⟨y, hlt n y hy⟩
      simp only [phase, of_apply, quad, Sum.elim_inl, fromBlocks_apply₁₁, conjTranspose_apply, toMatrix, transpose_apply] at h1 h2
      rw [h1, h2]
      simp
  rw [fockMatrix_unique hρ hF]
  simp only [psiFn, key, hexp, map_zero, Complex.exp_zero, one_mul, map_div₀, Complex.conj_ofReal]
  rw [div_mul_div_comm]
  congr 1
  rw [← Complex.ofReal_mul]
  congr 1
  have := Real.mul_self_sqrt (Real.sqrt_nonneg (Wmat N (Covmat N Q hbar) hbar).det)
  linear_combination Real.sqrt (∏ k, ((i k).factorial : ℝ)) * Real.sqrt (∏ k, ((j k).factorial : ℝ)) * this

/-- C75: the matrix elements of the state returned by `adj_to_qmat` in the photon-number basis are `⟨i|ρ|j⟩ = P₀ haf((xA)_i) conj haf((xA)_j) / √(i! j!)`, where `M_i`
repeats row and column `k` of `M` `i_k` times, and `P₀ = ∏ₖ √(1 - (x sₖ)²)`, `sₖ` the singular values of `A`, is the vacuum probability.  In particular the
probability of the pattern `i` is `P₀ |haf((xA)_i)|² / i!`. -/
theorem adjToQmat_fock (lib : Lib) (hsvd : SvdContract lib.svd) (hroot : RootContract lib.rootScalar) (n : ℕ) (hn : 0 < n) (A : CArr)
    (hA : ∀ i < n, ∀ j < n, A i j = A j i) (nMean : ℝ) (hs : 1e-7 < (lib.svd n A).2.1 0) (h0 : 0 ≤ nMean)
    (hmax : nMean ≤ 499 ∨ nMean ≤ reach ((lib.svd n A).2.1 0)) :
    ∃ x Q, adjScaling lib n A nMean = .ok x ∧ adjToQmat lib n n A nMean = .ok Q ∧ ∀ hbar : ℝ, 0 < hbar →
      ∀ ρ : (Fin n → ℕ) → (Fin n → ℕ) → ℂ, IsFockMatrix n (fun _ => 0) (Covmat n Q hbar) hbar ρ → ∀ i j : Fin n → ℕ,
        ρ i j = ((∏ k ∈ Finset.range n, Real.sqrt (1 - (x * (lib.svd n A).2.1 k) ^ 2) : ℝ) : ℂ) *
          (Spec.haf (repeatedMatrix (fun a b => (x : ℂ) * A a b) (List.ofFn i)) * (starRingEnd ℂ) (Spec.haf (repeatedMatrix (fun a b => (x : ℂ) * A a b) (List.ofFn j)))) /
            ((Real.sqrt (∏ k, ((i k).factorial : ℝ)) * Real.sqrt (∏ k, ((j k).factorial : ℝ)) : ℝ) : ℂ) := by
  obtain ⟨x, hx, hx0, hx1, hxm⟩ := adjScaling_spec lib hsvd hroot n hn A nMean hs h0 (hmax.elim (fun h => h.trans (reach_bound _ hs)) id)
  have hnn := (hsvd n A).2.2.1
  have hsq : ∀ i < n, (x * (lib.svd n A).2.1 i) ^ 2 < 1 := fun i hi => by
    have h1 := hx1 i hi
    have h2 := mul_nonneg hx0 (hnn i hi)
    nlinarith
  obtain ⟨hP, htr⟩ := scaled_gram lib.svd hsvd n A x hsq
  have hM : (toMatrix n n fun i j => (x : ℂ) * A i j)ᵀ = toMatrix n n fun i j => (x : ℂ) * A i j := by
    ext i j
    simp only [transpose_apply, toMatrix, of_apply]
    rw [hA j j.2 i i.2]
  obtain ⟨Q, hQ, hQp⟩ := graph_npInv (fun i j => (x : ℂ) * A i j) hM hP
  refine ⟨x, Q, hx, ?_, ?_⟩
  · unfold adjToQmat
    simp only [ne_eq, not_true_eq_false, if_false, bind, Except.bind, hx]
    exact hQ
  · intro hbar hh ρ hρ i j
    rw [graph_fock _ hM hP Q hQp hbar hh ρ hρ]
    have hd := graph_det _ hM hP Q hQp hbar hh
    have hd2 : (1 - (toMatrix n n fun i j => (x : ℂ) * A i j)ᴴ * toMatrix n n fun i j => (x : ℂ) * A i j).det =
        ((∏ k ∈ Finset.range n, (1 - (x * (lib.svd n A).2.1 k) ^ 2) : ℝ) : ℂ) := by
      obtain ⟨hu, hv, -, -, he⟩ := hsvd n A
      have e : (toMatrix n n fun i j => (x : ℂ) * A i j) = (x : ℂ) • (toMatrix n n (lib.svd n A).1 *
          diagonal (fun i : Fin n => (((lib.svd n A).2.1 i : ℝ) : ℂ)) * toMatrix n n (lib.svd n A).2.2) := by
        rw [he]; rfl
      rw [e, svd_gram n _ _ hu hv (fun i : Fin n => (lib.svd n A).2.1 i) x, det_mul_right_comm, Matrix.det_mul,
        show (toMatrix n n (lib.svd n A).2.2)ᴴ * toMatrix n n (lib.svd n A).2.2 = 1 from (Matrix.mem_unitaryGroup_iff').mp hv, det_one, one_mul, det_diagonal, Finset.prod_range, Complex.ofReal_prod]
    rw [hd2, ← Complex.ofReal_inv] at hd
    have hd3 := Complex.ofReal_injective hd
    have hpos : ∀ k ∈ Finset.range n, 0 ≤ 1 - (x * (lib.svd n A).2.1 k) ^ 2 := fun k hk => by linarith [hsq k (Finset.mem_range.mp hk)]
    rw [hd3, Real.sqrt_inv, Real.sqrt_prod _ hpos]
    have hne : (∏ k ∈ Finset.range n, Real.sqrt (1 - (x * (lib.svd n A).2.1 k) ^ 2)) ≠ 0 :=
      Finset.prod_ne_zero_iff.mpr fun k hk => (Real.sqrt_pos.mpr (by linarith [hsq k (Finset.mem_range.mp hk)])).ne'
    rw [mul_assoc, Complex.ofReal_mul, Complex.ofReal_inv, div_eq_mul_inv, mul_inv, inv_inv]
    ring

end Verif.Props
