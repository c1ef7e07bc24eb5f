/-
C70: `density_matrix`, with and without post-selection.
-/
import Verif.Props.FockState
import Verif.Props.Hermite

set_option linter.unusedSectionVars false
set_option linter.unusedSimpArgs false

namespace Verif.Props
open Verif.Model Verif.Model.Symp Verif.Model.Conv Verif.Model.Fock Verif.Spec Verif.Lemmas Verif.Lemmas.Symp Verif.Lemmas.FockS Verif.Lemmas.Chol Matrix

variable {N : ℕ} {cov : ℕ → ℕ → ℝ} {hbar : ℝ}

/-- The data the code computes with, for a physical state. -/
theorem fock_setup (mu : ℕ → ℝ) (hh : 0 < hbar) (hph : Physical (phase N N cov) hbar) :
    ∃ (A : ℕ → ℕ → ℂ) (γ : ℕ → ℂ) (pref : ℝ), Amat N cov hbar = .ok A ∧ (phase N N A)ᵀ = phase N N A ∧
      phase N N A * phase N N (Xmat N) = 1 - (phase N N (Qmat N cov hbar))⁻¹ ∧
      (γ = fun k => (starRingEnd ℂ) (complexToReal N mu hbar k) - dot (2 * N) (A k) (complexToReal N mu hbar)) ∧
      (∀ k < 2 * N, (∀ i < 2 * N, mu i = 0) → γ k = 0) ∧ 0 < pref ∧
      prefactor N mu cov hbar = .ok (pref : ℂ) ∧ IsFockMatrix N mu cov hbar (rhoMat N mu cov hbar A γ) ∧
      ∀ i j, rhoMat N mu cov hbar A γ i j = (pref : ℂ) * lh γ A (repeatedIndices (List.ofFn j ++ List.ofFn i)) /
        (Real.sqrt (((∏ k, ((j k).factorial : ℝ)) * ∏ k, ((i k).factorial : ℝ))) : ℝ) := by
  have hsym := physical_sym hph
  have hdet := det_W_pos hph hh
  have hQdet : (phase N N (Qmat N cov hbar)).det ≠ 0 := by rw [det_Q hsym hh, Complex.ofReal_ne_zero]; exact hdet.ne'
  obtain ⟨A, hA, hAt, -, hAQ, -⟩ := Amat_correct N cov hbar hsym hQdet
  set β := complexToReal N mu hbar with hβ
  let γ : ℕ → ℂ := fun k => (starRingEnd ℂ) (β k) - dot (2 * N) (A k) β
  have hγ : phaseVec N γ = star (dbl (ampVec (phaseVec N mu) hbar)) - phase N N A *ᵥ dbl (ampVec (phaseVec N mu) hbar) := by
    rw [← phaseVec_beta]
    funext p
    show (starRingEnd ℂ) (β (quad N p)) - dot (2 * N) (A (quad N p)) β = _
    rw [dot_phase]
    rfl
  have hpref := prefactor_correct hsym hh hdet mu
  have hq := Q_quad hsym hh hdet.ne' (phaseVec N mu)
  refine ⟨A, γ, Real.exp (-(1 / 2) * (phaseVec N mu ⬝ᵥ (phase N N cov + (hbar / 2) • 1)⁻¹ *ᵥ phaseVec N mu)) / Real.sqrt (Wmat N cov hbar).det, hA, hAt, hAQ, rfl,
    ?_, by positivity, ?_, rhoMat_fock hsym hh hdet.ne' mu A hAt hAQ γ hγ, fun i j => ?_⟩
  · intro k hk h0
    show (starRingEnd ℂ) (β k) - dot (2 * N) (A k) β = 0
    rw [hβ, beta_zero mu h0 k hk, map_zero, zero_sub, neg_eq_zero, dot_sum]
    refine Finset.sum_eq_zero fun l hl => ?_
    rw [beta_zero mu h0 l (Finset.mem_range.mp hl), mul_zero]
  · rw [hpref, hq]
    push_cast
    rfl
  · unfold rhoMat
    rw [hq]
    push_cast
    rfl

/-- the density matrix of a Gaussian state is Hermitian -/
theorem fockMatrix_hermitian {mu : ℕ → ℝ} {ρ : (Fin N → ℕ) → (Fin N → ℕ) → ℂ} (h : IsFockMatrix N mu cov hbar ρ) (i j : Fin N → ℕ) :
    (starRingEnd ℂ) (ρ i j) = ρ j i := by
  have h' : IsFockMatrix N mu cov hbar fun i j => (starRingEnd ℂ) (ρ j i) := by
    intro α
    have h1 := (h α)
    rw [← (Equiv.prodComm _ _).hasSum_iff] at h1
    have h2 := h1.map (starRingEnd ℂ) Complex.continuous_conj
    refine hasSum_of_eq h2 (fun q => ?_) (Complex.conj_ofReal _).symm
    simp only [Function.comp, Equiv.prodComm_apply, Prod.fst_swap, Prod.snd_swap, map_mul, starRingEnd_self_apply]
    ring
  exact (congrFun (congrFun (fockMatrix_unique h h') j) i).symm

/-- the call of the Hermite function made by `density_matrix` and `state_vector` -/
theorem hermite_lh {sjunk : ℕ → ℂ} {close : ℂ → ℂ → Bool} (hrefl : ∀ x, close x x = true) {n : ℕ} (A : ℕ → ℕ → ℂ) (hA : ∀ i < n, ∀ j < n, A i j = A j i)
    (y : Option (ℕ → ℂ)) (cutoff : ℕ) (hc : 0 < cutoff) (hc2 : cutoff ≤ 1000) :
    ∃ T : MArr ℂ, hermiteMultidimensional (sqrtTable sjunk) close (.arr n n fun i j => some (-A i j)) (List.replicate n cutoff) (y.map fun y => (n, y)) 1 true true true
        = .ok (.tensor (List.replicate n cutoff) T) ∧
      ∀ k : Fin n → ℕ, (∀ a, k a < cutoff) → T (List.ofFn k) = lh (y.getD fun _ => 0) A (repeatedIndices (List.ofFn k)) / ((sqrtFact k : ℝ) : ℂ) := by
  have hR : (toMatrix n n fun i j => -A i j).IsSymm := by ext i j; exact congrArg Neg.neg (hA j j.2 i i.2)
  have e : (PyObj.arr n n fun i j => some (-A i j)) = PyObj.ofMatrix (toMatrix n n fun i j => -A i j) fun i j => some (-A i j) := by
    unfold PyObj.ofMatrix
    congr 1
    funext i j
    split_ifs <;> rfl
  have ec : List.replicate n cutoff = List.ofFn fun _ : Fin n => cutoff := (List.ofFn_const n cutoff).symm
  have ey : (y.map fun y => (n, y)) = pyVec (y.map fun y => fun i : Fin n => y i) (y.getD fun _ => 0) := by
    rcases y with _ | y
    · rfl
    · simp only [pyVec, Option.map_some, Option.some.injEq, Prod.mk.injEq, true_and, Option.getD_some]
      funext i
      unfold vecEntries
      split_ifs <;> rfl
  rw [e, ec, ey]
  obtain ⟨H, H', h1, h2, h3⟩ := hermite_renorm sjunk close hrefl _ hR (fun i j => some (-A i j)) (y.map fun y => fun i : Fin n => y i) (y.getD fun _ => 0) 1
    (fun _ : Fin n => cutoff) (fun _ => hc) (fun _ => hc2) true
  obtain ⟨G, g1, g2⟩ := hermite_value (sqrtTable sjunk) close hrefl _ hR (fun i j => some (-A i j)) (y.map fun y => fun i : Fin n => y i) (y.getD fun _ => 0) 1
    (fun _ : Fin n => cutoff) (fun _ => hc) true
  refine ⟨H', h2, fun k hk => ?_⟩
  have hHG : H = G := by
    have := h1.symm.trans g1
    simpa using this
  rw [h3 k hk, hHG, g2 k hk, one_mul, spec_lhaf_repeated]
  congr 1
  have hlt : ∀ x ∈ repeatedIndices (List.ofFn k), x < n := fun x hx => by have := repeatedIndices_lt hx; simpa using this
  refine lh_congr (fun i hi => ?_) fun i hi j hj => ?_
  · simp only [vecEntries, hlt i hi, dif_pos, hermiteArg, if_true, optVec]
    rcases y with _ | y <;> rfl
  · simp only [entries, hlt i hi, hlt j hj, and_self, dif_pos, Matrix.neg_apply, toMatrix, of_apply, neg_neg, Option.getD_some]

theorem flat2_length {α β : Type*} (L : List α) (f g : α → β) : (L.flatMap fun k => [f k, g k]).length = 2 * L.length := by
  induction L with
  | nil => rfl
  | cons a L ih => rw [List.flatMap_cons, List.length_append, ih]; simp; omega

theorem flat2_get {α β : Type*} (L : List α) (f g : α → β) (b : ℕ) (hb : b < L.length) :
    (L.flatMap fun k => [f k, g k])[2 * b]? = some (f L[b]) ∧ (L.flatMap fun k => [f k, g k])[2 * b + 1]? = some (g L[b]) := by
  induction L generalizing b with
  | nil => simp at hb
  | cons a L ih =>
    rw [List.flatMap_cons]
    rcases b with _ | b
    · simp
    · have := ih b (by simpa using hb)
      rw [show 2 * (b + 1) = 2 * b + 2 by ring, show 2 * b + 2 + 1 = 2 * b + 1 + 2 by ring]
      simpa using this

theorem sfOrder_nodup (N : ℕ) : (sfOrder N).Nodup := by
  unfold sfOrder
  rw [List.nodup_flatMap]
  constructor
  · intro x hx
    have : x < N := List.mem_range.mp hx
    simp; omega
  · have h := List.nodup_range (n := N)
    rw [List.Nodup, List.pairwise_iff_getElem] at h
    rw [List.pairwise_iff_getElem]
    intro i j hi hj hij
    simp only [List.length_range] at hi hj
    simp only [List.getElem_range, Function.onFun]
    intro x hx hy
    simp only [List.mem_cons, List.not_mem_nil, or_false] at hx hy
    omega

theorem sfOrder_idx (N k : ℕ) (hk : k < N) : (sfOrder N).idxOf k = 2 * k ∧ (sfOrder N).idxOf (k + N) = 2 * k + 1 := by
  have h := flat2_get (List.range N) (fun i => i) (fun i => i + N) k (by simpa using hk)
  rw [List.getElem_range] at h
  have key : ∀ (m v : ℕ), (sfOrder N)[m]? = some v → (sfOrder N).idxOf v = m := by
    intro m v hm
    obtain ⟨hlt, e⟩ := List.getElem?_eq_some_iff.mp hm
    rw [← e]
    exact (sfOrder_nodup N).idxOf_getElem m hlt
  exact ⟨key _ _ h.1, key _ _ h.2⟩

/-- the transposition to the index order of the Strawberry Fields convention -/
theorem transpose_sf {K : Type} (T : MArr K) (i j : Fin N → ℕ) :
    transposeT (sfOrder N) T ((List.finRange N).flatMap fun k => [i k, j k]) = T (List.ofFn i ++ List.ofFn j) := by
  unfold transposeT
  congr 1
  have hl : (sfOrder N).length = 2 * N := by unfold sfOrder; rw [flat2_length]; simp
  rw [hl, two_mul, List.range_add, List.map_append, List.map_map]
  congr 1
  · apply List.ext_getElem
    · simp
    · intro n h1 h2
      have hn : n < N := by simpa using h1
      rw [List.getElem_map, List.getElem_range, (sfOrder_idx N n hn).1]
      have h := (flat2_get (List.finRange N) i j n (by simpa using hn)).1
      rw [List.getD_eq_getElem?_getD, h]
      simp
  · apply List.ext_getElem
    · simp
    · intro n h1 h2
      have hn : n < N := by simpa using h1
      rw [List.getElem_map, List.getElem_range]
      simp only [Function.comp]
      rw [add_comm N n, (sfOrder_idx N n hn).2]
      have h := (flat2_get (List.finRange N) i j n (by simpa using hn)).2
      rw [List.getD_eq_getElem?_getD, h]
      simp

/-- **C70** Without post-selection, `density_matrix(mu, cov, cutoff)` is the tensor of the matrix elements `⟨i|ρ|j⟩` of the Gaussian state, at the
indices `i₀, j₀, i₁, j₁, …` (all below `cutoff`, at most 1000), for every physical state. -/
theorem densityMatrixAll_correct {sjunk : ℕ → ℂ} (mu : ℕ → ℝ) (cov : ℕ → ℕ → ℝ) (hbar : ℝ) (hh : 0 < hbar)
    (hph : Physical (phase N N cov) hbar) (zeroMu : Bool) (hz : zeroMu = true → ∀ i < 2 * N, mu i = 0) (cutoff : ℕ) (hc : 0 < cutoff) (hc2 : cutoff ≤ 1000) :
    ∃ ρ T, IsFockMatrix N mu cov hbar ρ ∧ densityMatrixAll (sqrtTable sjunk) (isClose 0 0) N mu cov zeroMu cutoff hbar = .ok T ∧
      ∀ i j : Fin N → ℕ, (∀ k, i k < cutoff) → (∀ k, j k < cutoff) → T ((List.finRange N).flatMap fun k => [i k, j k]) = ρ i j := by
  obtain ⟨A, γ, pref, hA, hAt, -, hγ, hγ0, hp, hpref, hF, hρ⟩ := fock_setup mu hh hph
  have hAs : ∀ a < 2 * N, ∀ b < 2 * N, A a b = A b a := by
    intro a ha b hb
    obtain ⟨p, rfl⟩ := exists_quad N a ha
    obtain ⟨q, rfl⟩ := exists_quad N b hb
    exact congrFun (congrFun hAt q) p
  obtain ⟨T, hT, hTv⟩ := hermite_lh (sjunk := sjunk) (close := isClose 0 0) (isClose_refl le_rfl le_rfl) (n := 2 * N) (fun i j => (starRingEnd ℂ) (A i j))
    (fun a ha b hb => by rw [hAs a ha b hb]) (if zeroMu then none else some fun k => (starRingEnd ℂ) (γ k)) cutoff hc hc2
  refine ⟨_, transposeT (sfOrder N) fun idx => (pref : ℂ) * T idx, hF, ?_, fun i j hi hj => ?_⟩
  · unfold densityMatrixAll
    simp only [bind, Except.bind, pure, Except.pure]
    rw [hpref]
    simp only
    rw [hA]
    simp only
    have ey : (if zeroMu = true then none else some (2 * N, fun k => complexToReal N mu hbar k - dot (2 * N) (fun j => (starRingEnd ℂ) (A k j))
        fun l => (starRingEnd ℂ) (complexToReal N mu hbar l))) = (if zeroMu then none else some fun k => (starRingEnd ℂ) (γ k)).map fun y => (2 * N, y) := by
      rcases zeroMu with _ | _
      · simp only [Bool.false_eq_true, if_false, Option.map_some, Option.some.injEq, Prod.mk.injEq, true_and]
        funext k
        rw [hγ]
        simp only [map_sub, starRingEnd_self_apply, dot_sum, map_sum, map_mul]
      · rfl
    rw [ey, hT]
    rfl
  · rw [transpose_sf]
    have e := hTv (pairEquiv N (i, j)) (by
      intro a
      obtain ⟨p, rfl⟩ := (quadEquiv N).surjective a
      rw [pairEquiv_quad]
      rcases p with p | p
      · exact hi p
      · exact hj p)
    rw [pairEquiv_list] at e
    simp only at e
    rw [e, ← fockMatrix_hermitian hF, hρ]
    have hl : lh ((if zeroMu = true then none else some fun k => (starRingEnd ℂ) (γ k)).getD fun _ => 0) (fun i j => (starRingEnd ℂ) (A i j))
        (repeatedIndices (List.ofFn i ++ List.ofFn j)) = (starRingEnd ℂ) (lh γ A (repeatedIndices (List.ofFn i ++ List.ofFn j))) := by
      rw [lh_ringHom]
      refine lh_congr (fun x hx => ?_) fun _ _ _ _ => rfl
      have hx' : x < 2 * N := by have := repeatedIndices_lt hx; simp at this; omega
      rcases hzz : zeroMu with _ | _
      · rfl
      · simp [hγ0 x hx' (hz hzz)]
    rw [hl, map_div₀, map_mul, Complex.conj_ofReal, Complex.conj_ofReal, mul_div_assoc]
    congr 4
    unfold sqrtFact
    congr 1
    rw [← (quadEquiv N).prod_comp]
    simp only [pairEquiv_quad, Fintype.prod_sum_type, Sum.elim_inl, Sum.elim_inr]

end Verif.Props
