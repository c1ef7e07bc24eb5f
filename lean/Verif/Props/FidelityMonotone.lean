/-
C105: the fidelity does not decrease when modes are discarded.
-/
import Verif.Lemmas.Contraction
import Verif.Props.Independent
import Verif.Props.PassiveFock

set_option linter.unusedSectionVars false

namespace Verif.Props

open Matrix Verif.Spec Verif.Model Verif.Model.Symp Verif.Model.Ent Verif.Model.Fid Verif.Lemmas Verif.Lemmas.Symp Verif.Lemmas.FPar Verif.Lemmas.FTr Verif.Lemmas.Heis Verif.Lemmas.Contr

open scoped ComplexOrder

noncomputable section

section abstract

variable {I J X : Type} [DecidableEq I] [DecidableEq J] [DecidableEq X] {ρ σ : X → X → ℂ} {p r : X → ℝ} {U V : X → X → ℂ}

/-- the rows of the square root of a density matrix, in the basis of its eigenvectors -/
def rowVec (h : IsSpectral ρ p V) (bV : HilbertBasis X ℂ (L2 X)) (x : X) : L2 X := dop (spectral_range h) (bV.repr (lp.single 2 x (1 : ℂ)))

theorem rowVec_norm (h : IsSpectral ρ p V) (bV : HilbertBasis X ℂ (L2 X)) (hbV : ∀ m x, bV m x = V x m) (x : X) : ‖rowVec h bV x‖ ^ 2 = (ρ x x).re := by
  have e := spectral_rows h bV hbV x x
  have e2 : inner ℂ (rowVec h bV x) (rowVec h bV x) = ρ x x := e
  rw [inner_self_eq_norm_sq_to_K, ← RCLike.ofReal_pow] at e2
  rw [← e2]
  exact (Complex.ofReal_re _).symm

theorem rowVec_summable (h : IsSpectral ρ p V) (bV : HilbertBasis X ℂ (L2 X)) (hbV : ∀ m x, bV m x = V x m) : Summable fun x => ‖rowVec h bV x‖ ^ 2 := by
  simp only [rowVec_norm h bV hbV]
  exact (spectral_trace h).summable

/-- `∑ₓ ⟨v, S_x⟩ ⟨R_x, w⟩ = ⟨v, √σ √ρ w⟩` -/
theorem rowVec_sum (h : IsSpectral ρ p V) (bV : HilbertBasis X ℂ (L2 X)) (hσ : IsSpectral σ r U) (bU : HilbertBasis X ℂ (L2 X)) (v w : L2 X) :
    HasSum (fun x => inner ℂ v (rowVec hσ bU x) * inner ℂ (rowVec h bV x) w) (inner ℂ v (dop (spectral_range hσ) (bU.repr (bV.repr.symm (dop (spectral_range h) w))))) := by
  have e1 : ∀ (hb : HilbertBasis X ℂ (L2 X)) (u : L2 X) (x : X), inner ℂ (hb.repr (lp.single 2 x (1 : ℂ))) u = hb.repr.symm u x := fun hb u x => by
    rw [← hb.repr.symm.inner_map_map, LinearIsometryEquiv.symm_apply_apply, lp.inner_single_left]
    simp [RCLike.inner_apply]
  have h1 := inner_fun (bU.repr.symm (dop (spectral_range hσ) v)) (bV.repr.symm (dop (spectral_range h) w))
  have e2 : inner ℂ v (dop (spectral_range hσ) (bU.repr (bV.repr.symm (dop (spectral_range h) w)))) = inner ℂ (bU.repr.symm (dop (spectral_range hσ) v)) (bV.repr.symm (dop (spectral_range h) w)) := by
    rw [← dop_inner, ← bU.repr.symm.inner_map_map, LinearIsometryEquiv.symm_apply_apply]
  rw [e2]
  refine h1.congr_fun fun x => ?_
  rw [rowVec, rowVec, dop_inner, e1, ← dop_inner, ← inner_conj_symm, e1]

/-- the rows of all states of the second system together -/
theorem exists_blocks (h : IsSpectral ρ p V) (bV : HilbertBasis X ℂ (L2 X)) (hbV : ∀ m x, bV m x = V x m) (e : X ≃ I × J) (ρ' : I → I → ℂ) (hρ' : ∀ i i', HasSum (fun j => ρ (e.symm (i, j)) (e.symm (i', j))) (ρ' i i')) :
    ∃ R : I → lp (fun _ : J => L2 X) 2, (∀ i j, R i j = rowVec h bV (e.symm (i, j))) ∧ ∀ i i', inner ℂ (R i) (R i') = ρ' i i' := by
  have hm : ∀ i, Memℓp (fun j => rowVec h bV (e.symm (i, j))) 2 := fun i => by
    refine memℓp_gen ?_
    have h1 := (rowVec_summable h bV hbV).comp_injective (i := fun j => e.symm (i, j)) fun a b hab => (Prod.mk.inj (e.symm.injective hab)).2
    refine h1.congr fun j => ?_
    norm_num
  refine ⟨fun i => ⟨_, hm i⟩, fun i j => rfl, fun i i' => ?_⟩
  exact (lp.hasSum_inner _ _).unique ((hρ' i i').congr_fun fun j => spectral_rows h bV hbV _ _)

/-- **C105** discarding a system does not decrease the fidelity: `ρ'` and `σ'` are the partial traces of `ρ` and `σ` -/
theorem hasFidelity_monotone (e : X ≃ I × J) {ρ' σ' : I → I → ℂ} (hρ' : ∀ i i', HasSum (fun j => ρ (e.symm (i, j)) (e.symm (i', j))) (ρ' i i'))
    (hσ' : ∀ i i', HasSum (fun j => σ (e.symm (i, j)) (e.symm (i', j))) (σ' i i')) (hσs : IsSpectral σ r U) {rA : I → ℝ} {UA : I → I → ℂ} (hσA : IsSpectral σ' rA UA) {F F' : ℝ} (hF : HasFidelity ρ σ F)
    (hF' : HasFidelity ρ' σ' F') : F ≤ F' := by
  obtain ⟨p, V, s, q, W, t, hp, hs, hW, hq, hM, ht, rfl⟩ := hF
  obtain ⟨pA, VA, sA, qA, WA, tA, hpA, hsA, hWA, hqA, hMA, htA, rfl⟩ := hF'
  obtain ⟨bV, hbV⟩ := exists_basis hp.unitary
  obtain ⟨bU, hbU⟩ := exists_basis hσs.unitary
  obtain ⟨b, hb⟩ := exists_basis hW
  obtain ⟨bVA, hbVA⟩ := exists_basis hpA.unitary
  obtain ⟨bUA, hbUA⟩ := exists_basis hσA.unitary
  obtain ⟨bA, hbA⟩ := exists_basis hWA
  have o := fidelity_vectors hσs hp s hs hW hq (summable_of_sqrt hq ht) hM bU bV b hbU hbV hb
  have oA := fidelity_vectors hσA hpA sA hsA hWA hqA (summable_of_sqrt hqA htA) hMA bUA bVA bA hbUA hbVA hbA
  obtain ⟨R, hR, hRi⟩ := exists_blocks hp bV hbV e ρ' hρ'
  obtain ⟨S, hS, hSi⟩ := exists_blocks hσs bU hbU e σ' hσ'
  obtain ⟨w, hw, hwR⟩ := gram_contraction (rowVec hpA bVA) R fun i i' => (spectral_rows hpA bVA hbVA i i').trans (hRi i i').symm
  obtain ⟨w', hw', hwS⟩ := gram_contraction (rowVec hσA bUA) S fun i i' => (spectral_rows hσA bUA hbUA i i').trans (hSi i i').symm
  have ht0 : 0 ≤ t := ht.nonneg fun k => Real.sqrt_nonneg _
  refine pow_le_pow_left₀ ht0 (hasSum_le_of_sum_le ht fun fs => ?_) 2
  obtain ⟨z, hz, hza⟩ := normalise (fun k => dop (spectral_range hσs) (bU.repr (bV.repr.symm (dop (spectral_range hp) (b k))))) hq o
  rw [sum_sqrt_subtype]
  set s' := fs.subtype fun k => q k ≠ 0
  obtain ⟨C, hC, hCn⟩ := finite_rank (fun k : {k // q k ≠ 0} => b k) z (b.orthonormal.comp _ Subtype.val_injective) hz s'
  obtain ⟨D, hD, hDn⟩ := componentwise (J := J) C hCn
  have h1 : HasSum (fun x => inner ℂ (rowVec hp bV x) (C (rowVec hσs bU x))) (∑ k ∈ s', (Real.sqrt (q k) : ℂ)) := by
    have h2 := hasSum_sum fun k (_ : k ∈ s') => (hza k) ▸ rowVec_sum hp bV hσs bU (z k) (b k)
    refine h2.congr_fun fun x => ?_
    rw [hC, inner_sum]
    refine Finset.sum_congr rfl fun k _ => ?_
    rw [inner_smul_right]
  have h3 := (e.symm.hasSum_iff.mpr h1).prod_fiberwise (g := fun i => inner ℂ (R i) (D (S i))) fun i => by
    refine (lp.hasSum_inner (R i) (D (S i))).congr_fun fun j => ?_
    rw [hR, hD, hS]
    rfl
  have hDn' : ∀ u, ‖((w.adjoint.comp D).comp w') u‖ ≤ ‖u‖ := fun u => by
    simp only [ContinuousLinearMap.comp_apply]
    refine le_trans ?_ ((hDn _).trans (hw' u))
    refine (w.adjoint.le_opNorm _).trans ?_
    rw [LinearIsometryEquiv.norm_map]
    exact mul_le_of_le_one_left (norm_nonneg _) (w.opNorm_le_bound zero_le_one fun u => by rw [one_mul]; exact hw u)
  have h4 : HasSum (fun i => inner ℂ (rowVec hpA bVA i) (((w.adjoint.comp D).comp w') (rowVec hσA bUA i))) (∑ k ∈ s', (Real.sqrt (q k) : ℂ)) := by
    refine h3.congr_fun fun i => ?_
    simp only [ContinuousLinearMap.comp_apply]
    rw [ContinuousLinearMap.adjoint_inner_right, hwR, hwS]
  have htA' : HasSum (fun l => ‖dop (spectral_range hσA) (bUA.repr (bVA.repr.symm (dop (spectral_range hpA) (bA l))))‖) tA := by
    refine htA.congr_fun fun l => ?_
    have h5 := oA l l
    rw [if_pos rfl, inner_self_eq_norm_sq_to_K, ← RCLike.ofReal_pow] at h5
    have h6 : ‖dop (spectral_range hσA) (bUA.repr (bVA.repr.symm (dop (spectral_range hpA) (bA l))))‖ ^ 2 = qA l := Complex.ofReal_inj.mp h5
    rw [← h6, Real.sqrt_sq (norm_nonneg _)]
  have h7 := trace_bound bA (rowVec hpA bVA) (rowVec hσA bUA) _ (rowVec_summable hpA bVA hbVA) (rowVec_summable hσA bUA hbUA) (fun l v => rowVec_sum hpA bVA hσA bUA v (bA l)) _ hDn' htA' h4
  rwa [← Complex.ofReal_sum, Complex.ofReal_re] at h7

end abstract

section gaussian

variable {N M K : ℕ} {hbar : ℝ} {sqrtm : ℕ → RArr → RArr} (hsq : SqrtmDiagContract sqrtm) (close : ℝ → ℝ → Bool) (hc : ∀ x, close x 0 = true → x = 0)

/-- the occupation numbers of the listed and of the other modes -/
def occSplit (f : Fin M → Fin N) (hf : Function.Injective f) : (Fin N → ℕ) ≃ (Fin M → ℕ) × ({k : Fin N // k ∉ Set.range f} → ℕ) :=
  ((Equiv.arrowCongr (splitModes f hf) (Equiv.refl ℕ)).symm).trans (Equiv.sumArrowEquivProdArrow _ _ _)

theorem occSplit_symm (f : Fin M → Fin N) (hf : Function.Injective f) (i : Fin M → ℕ) (j : {k : Fin N // k ∉ Set.range f} → ℕ) : (occSplit f hf).symm (i, j) = Sum.elim i j ∘ (splitModes f hf).symm := rfl

/-- the density matrix of the listed modes is the partial trace -/
theorem fock_restrict (hh : 0 < hbar) (f : Fin M → Fin N) (hf : Function.Injective f) {mu m : ℕ → ℝ} {cov c : RArr} (hph : Physical (phase N N cov) hbar) (hm : phaseVec M m = resV (phaseVec N mu) f)
    (hcv : phase M M c = resM (phase N N cov) f) {ρ : (Fin N → ℕ) → (Fin N → ℕ) → ℂ} (hρ : IsFockMatrix N mu cov hbar ρ) :
    Physical (phase M M c) hbar ∧ ∃ ρ', IsFockMatrix M m c hbar ρ' ∧ ∀ i i', HasSum (fun j => ρ ((occSplit f hf).symm (i, j)) ((occSplit f hf).symm (i', j))) (ρ' i i') := by
  obtain ⟨ρ', h1, h2⟩ := fock_partialTrace f hf hh hph hρ
  refine ⟨?_, ρ', ?_, fun i i' => ?_⟩
  · rw [hcv]; exact physical_submatrix _ _ hph f hf
  · rw [isFock_iff, hm, hcv]
    have e : resM (phase N N cov + (hbar / 2) • 1) f = resM (phase N N cov) f + (hbar / 2) • 1 := by
      ext p q
      rcases p with p | p <;> rcases q with q | q <;> simp [resM, Matrix.one_apply, hf.eq_iff]
    rw [← e]; exact h2
  · have h3 := h1 i i'
    rw [← (tracePairs f hf i i').hasSum_iff] at h3
    exact h3

include hsq hc

/-- the fidelity does not decrease when modes are discarded -/
theorem fidelity_restrict (hh : 0 < hbar) (f : Fin M → Fin N) (hf : Function.Injective f) (mu1 mu2 m1 m2 : ℕ → ℝ) (cov1 cov2 c1 c2 : RArr) (hp1 : Physical (phase N N cov1) hbar)
    (hp2 : Physical (phase N N cov2) hbar) (hm1 : phaseVec M m1 = resV (phaseVec N mu1) f) (hc1 : phase M M c1 = resM (phase N N cov1) f) (hm2 : phaseVec M m2 = resV (phaseVec N mu2) f)
    (hc2 : phase M M c2 = resM (phase N N cov2) f) :
    ∃ F F', fidelity sqrtm close (2 * N) mu1 (2 * N) (2 * N) cov1 (2 * N) mu2 (2 * N) (2 * N) cov2 hbar = .ok F ∧
      fidelity sqrtm close (2 * M) m1 (2 * M) (2 * M) c1 (2 * M) m2 (2 * M) (2 * M) c2 hbar = .ok F' ∧ F ≤ F' := by
  obtain ⟨ρ, _, _, -, hρ, -⟩ := fock_gram (N := N) mu1 hh hp1
  obtain ⟨σ, _, _, -, hσ, -⟩ := fock_gram (N := N) mu2 hh hp2
  obtain ⟨hq1, ρ', hρ', hρt⟩ := fock_restrict hh f hf hp1 hm1 hc1 hρ
  obtain ⟨hq2, σ', hσ', hσt⟩ := fock_restrict hh f hf hp2 hm2 hc2 hσ
  obtain ⟨F, hF, -⟩ := fidelity_range hsq close hc mu1 mu2 cov1 cov2 hbar hh hp1 hp2
  obtain ⟨F', hF', -⟩ := fidelity_range hsq close hc m1 m2 c1 c2 hbar hh hq1 hq2
  obtain ⟨r, U, hU⟩ := gaussian_spectral mu2 cov2 hbar hh hp2 σ hσ
  obtain ⟨r', U', hU'⟩ := gaussian_spectral m2 c2 hbar hh hq2 σ' hσ'
  exact ⟨F, F', hF, hF', hasFidelity_monotone (occSplit f hf) hρt hσt hU hU' ((fidelity_correct hsq close hc mu1 mu2 cov1 cov2 hbar hh hp1 hp2 ρ σ hρ hσ F).mp hF)
    ((fidelity_correct hsq close hc m1 m2 c1 c2 hbar hh hq1 hq2 ρ' σ' hρ' hσ' F').mp hF')⟩

omit hsq hc in
/-- a list of modes, as a map -/
theorem reduction_restrict (s r : GState ℝ) (modes : List ℕ) (hn : modes.Nodup) (hb : ∀ m ∈ modes, m < N) (hr : IsReduction N s modes r) :
    ∃ f : Fin modes.length → Fin N, Function.Injective f ∧ (∀ a, (f a : ℕ) = modes[a]) ∧ phaseVec modes.length r.mu = resV (phaseVec N s.mu) f ∧ phase modes.length modes.length r.cov = resM (phase N N s.cov) f := by
  let f : Fin modes.length → Fin N := fun a => ⟨modes[a], hb _ (List.getElem_mem _)⟩
  have hf : Function.Injective f := by
    intro a b hab
    have h1 : modes[a] = modes[b] := congrArg Fin.val hab
    exact Fin.ext ((hn.getElem_inj_iff).mp h1)
  have hfe : (fun a : Fin modes.length => (⟨modes.getD a 0, hb _ (by rw [List.getD_eq_getElem _ _ a.2]; exact List.getElem_mem _)⟩ : Fin N)) = f := by
    funext a
    exact Fin.ext (List.getD_eq_getElem _ _ a.2)
  have hsub := reduction_submatrix s r modes hb hr
  dsimp only at hsub
  rw [hfe] at hsub
  refine ⟨f, hf, fun _ => rfl, ?_, hsub⟩
  funext p
  rcases p with p | p
  · have := (hr.mean p p.2).1
    rw [List.getD_eq_getElem _ _ p.2] at this
    exact this
  · have := (hr.mean p p.2).2
    rw [List.getD_eq_getElem _ _ p.2] at this
    exact this

/-- **C105** `fidelity` of the states returned by `reduced_state` for a list of distinct modes is at least the fidelity of the states -/
theorem fidelity_reduced (hh : 0 < hbar) (s t : GState ℝ) (hs : s.len = 2 * N) (ht : t.len = 2 * N) (hps : Physical (phase N N s.cov) hbar) (hpt : Physical (phase N N t.cov) hbar) (modes : List ℕ) (hne : modes ≠ [])
    (hn : modes.Nodup) (hb : ∀ m ∈ modes, m < N) :
    ∃ s' t' F F', reducedState s modes = .ok s' ∧ reducedState t modes = .ok t' ∧
      fidelity sqrtm close (2 * N) s.mu (2 * N) (2 * N) s.cov (2 * N) t.mu (2 * N) (2 * N) t.cov hbar = .ok F ∧
      fidelity sqrtm close (2 * modes.length) s'.mu (2 * modes.length) (2 * modes.length) s'.cov (2 * modes.length) t'.mu (2 * modes.length) (2 * modes.length) t'.cov hbar = .ok F' ∧ F ≤ F' := by
  obtain ⟨s', hs', hrs⟩ := reducedState_eq N s hs modes hne hb
  obtain ⟨t', ht', hrt⟩ := reducedState_eq N t ht modes hne hb
  obtain ⟨f, hf, hfa, a1, a2⟩ := reduction_restrict s s' modes hn hb hrs
  obtain ⟨f', -, hfa', b1, b2⟩ := reduction_restrict t t' modes hn hb hrt
  have e : f' = f := funext fun a => Fin.ext ((hfa' a).trans (hfa a).symm)
  rw [e] at b1 b2
  obtain ⟨F, F', hF, hF', hle⟩ := fidelity_restrict hsq close hc hh f hf s.mu t.mu s'.mu t'.mu s.cov t.cov s'.cov t'.cov hps hpt a1 a2 b1 b2
  exact ⟨s', t', F, F', hs', ht', hF, hF', hle⟩

/-- the fidelity does not decrease under a Gaussian channel: an environment in the state `(muE, covE)`, a symplectic matrix `S`, and discarding all modes but those in the range of `f` -/
theorem fidelity_channel (hh : 0 < hbar) (s t e s' t' : GState ℝ) (hps : Physical (phase N N s.cov) hbar) (hpt : Physical (phase N N t.cov) hbar) (hpe : Physical (phase K K e.cov) hbar)
    (S : Matrix (Fin (N + K) ⊕ Fin (N + K)) (Fin (N + K) ⊕ Fin (N + K)) ℝ) (hS : S ∈ symplecticGroup (Fin (N + K)) ℝ) (f : Fin M → Fin (N + K)) (hf : Function.Injective f)
    (h1 : ∀ j, Independent N K j s e → resV (S *ᵥ phaseVec (N + K) j.mu) f = phaseVec M s'.mu ∧ resM (S * phase (N + K) (N + K) j.cov * Sᵀ) f = phase M M s'.cov)
    (h2 : ∀ j, Independent N K j t e → resV (S *ᵥ phaseVec (N + K) j.mu) f = phaseVec M t'.mu ∧ resM (S * phase (N + K) (N + K) j.cov * Sᵀ) f = phase M M t'.cov) :
    ∃ F F', fidelity sqrtm close (2 * N) s.mu (2 * N) (2 * N) s.cov (2 * N) t.mu (2 * N) (2 * N) t.cov hbar = .ok F ∧
      fidelity sqrtm close (2 * M) s'.mu (2 * M) (2 * M) s'.cov (2 * M) t'.mu (2 * M) (2 * M) t'.cov hbar = .ok F' ∧ F ≤ F' := by
  obtain ⟨j, hj⟩ := independent_exists N K s e
  obtain ⟨k, hk⟩ := independent_exists N K t e
  obtain ⟨F, G, hF, hG, hFG⟩ := fidelity_multiplicative hsq close hc hj hk hbar hh hps hpe hpt hpe
  obtain ⟨G', hG', -, -, hG1⟩ := fidelity_range hsq close hc e.mu e.mu e.cov e.cov hbar hh hpe hpe
  have e1 : G = 1 := by
    rw [Except.ok.inj (hG.symm.trans hG')]
    exact hG1.mpr ⟨rfl, rfl⟩
  rw [e1, mul_one] at hFG
  obtain ⟨cj, hcj⟩ := exists_cov (S * phase (N + K) (N + K) j.cov * Sᵀ)
  obtain ⟨mj, hmj⟩ := exists_phaseVec (S *ᵥ phaseVec (N + K) j.mu)
  obtain ⟨ck, hck⟩ := exists_cov (S * phase (N + K) (N + K) k.cov * Sᵀ)
  obtain ⟨mk, hmk⟩ := exists_phaseVec (S *ᵥ phaseVec (N + K) k.mu)
  have pj := independent_physical hj hbar hps hpe
  have pk := independent_physical hk hbar hpt hpe
  have hinv := fidelity_invariant hsq close hc j.mu k.mu mj mk j.cov k.cov cj ck hbar hh pj pk S hS 0 hcj hck (by rw [hmj, add_zero]) (by rw [hmk, add_zero])
  have pj' : Physical (phase (N + K) (N + K) cj) hbar := by rw [hcj]; exact physical_symplectic _ _ hbar pj hS
  have pk' : Physical (phase (N + K) (N + K) ck) hbar := by rw [hck]; exact physical_symplectic _ _ hbar pk hS
  obtain ⟨F₂, F', hF₂, hF', hle⟩ := fidelity_restrict hsq close hc hh f hf mj mk s'.mu t'.mu cj ck s'.cov t'.cov pj' pk' (by rw [hmj]; exact (h1 j hj).1.symm) (by rw [hcj]; exact (h1 j hj).2.symm)
    (by rw [hmk]; exact (h2 k hk).1.symm) (by rw [hck]; exact (h2 k hk).2.symm)
  rw [hinv, hFG] at hF₂
  exact ⟨F, F', hF, hF', (Except.ok.inj hF₂) ▸ hle⟩

/-- **C105** `passive_transformation` does not decrease the fidelity -/
theorem fidelity_passive (hh : 0 < hbar) (s t : GState ℝ) (hs : s.len = 2 * N) (ht : t.len = 2 * N) (hps : Physical (phase N N s.cov) hbar) (hpt : Physical (phase N N t.cov) hbar) (T : ℕ → ℕ → ℂ)
    (hT : (1 - toMatrix M N T * (toMatrix M N T)ᴴ).PosSemidef) :
    ∃ s' t' F F', passiveTransformation s M N T hbar = .ok s' ∧ passiveTransformation t M N T hbar = .ok t' ∧
      fidelity sqrtm close (2 * N) s.mu (2 * N) (2 * N) s.cov (2 * N) t.mu (2 * N) (2 * N) t.cov hbar = .ok F ∧
      fidelity sqrtm close (2 * M) s'.mu (2 * M) (2 * M) s'.cov (2 * M) t'.mu (2 * M) (2 * M) t'.cov hbar = .ok F' ∧ F ≤ F' := by
  obtain ⟨U, hU, hUT⟩ := (dilation_exists N M T).mp hT
  obtain ⟨s', hs', -⟩ := passive_phase s M N T hbar hs
  obtain ⟨t', ht', -⟩ := passive_phase t M N T hbar ht
  obtain ⟨cov₂, hcov₂⟩ := exists_cov (N := M) ((hbar / 2) • 1)
  obtain ⟨mu₂, hmu₂⟩ := exists_phaseVec (N := M) 0
  have hpe := (vacuum_fock hh mu₂ cov₂ hmu₂ hcov₂).1
  obtain ⟨F, F', h⟩ := fidelity_channel hsq close hc hh s t ⟨2 * M, mu₂, cov₂⟩ s' t' hps hpt hpe _ ((interferometer_symplectic_iff _ _).mpr hU) (Fin.castLE (Nat.le_add_left M N)) (Fin.castLE_injective _)
    (fun j hj => passive_moments s s' hs T U hU hUT hs' mu₂ j.mu cov₂ j.cov hmu₂ hcov₂ (independent_mean hj) (independent_cov hj) _ rfl _ rfl)
    (fun j hj => passive_moments t t' ht T U hU hUT ht' mu₂ j.mu cov₂ j.cov hmu₂ hcov₂ (independent_mean hj) (independent_cov hj) _ rfl _ rfl)
  exact ⟨s', t', F, F', hs', ht', h⟩

/-- **C105** `loss` on a mode, with any thermal environment, does not decrease the fidelity -/
theorem fidelity_loss (hh : 0 < hbar) (s t : GState ℝ) (hs : s.len = 2 * N) (ht : t.len = 2 * N) (hps : Physical (phase N N s.cov) hbar) (hpt : Physical (phase N N t.cov) hbar) (T nbar : ℝ) (h0 : 0 ≤ T) (h1 : T ≤ 1)
    (hn : 0 ≤ nbar) (m : Fin N) :
    ∃ s' t' F F', loss s T m nbar hbar = .ok s' ∧ loss t T m nbar hbar = .ok t' ∧
      fidelity sqrtm close (2 * N) s.mu (2 * N) (2 * N) s.cov (2 * N) t.mu (2 * N) (2 * N) t.cov hbar = .ok F ∧
      fidelity sqrtm close (2 * N) s'.mu (2 * N) (2 * N) s'.cov (2 * N) t'.mu (2 * N) (2 * N) t'.cov hbar = .ok F' ∧ F ≤ F' := by
  obtain ⟨cov₂, hcov₂⟩ := exists_cov (N := 1) (((2 * nbar + 1) * hbar / 2) • 1)
  obtain ⟨mu₂, hmu₂⟩ := exists_phaseVec (N := 1) 0
  have hpe := (thermal_fock hh nbar hn mu₂ cov₂ hmu₂ hcov₂).1
  obtain ⟨F, F', h⟩ := fidelity_channel hsq close hc hh s t ⟨2, mu₂, cov₂⟩ _ _ hps hpt hpe _ (embed_symp _ (lossModes_injective m) _ (beamSplitter_symplectic _ _)) Fin.castSucc (Fin.castSucc_injective N)
    (fun j hj => loss_moments (hbar := hbar) s T nbar h0 h1 m j.mu j.cov (by rw [independent_mean hj, hmu₂]) (by rw [independent_cov hj, hcov₂]) _ rfl)
    (fun j hj => loss_moments (hbar := hbar) t T nbar h0 h1 m j.mu j.cov (by rw [independent_mean hj, hmu₂]) (by rw [independent_cov hj, hcov₂]) _ rfl)
  exact ⟨_, _, F, F', loss_eq N s hs T h0 m m.2 nbar hbar, loss_eq N t ht T h0 m m.2 nbar hbar, h⟩

/-- the hypotheses hold for a two-mode squeezed vacuum and the vacuum, and the inequality is strict after losing all light of both modes -/
example : ∃ s t : GState ℝ, s.len = 2 * 2 ∧ t.len = 2 * 2 ∧ Physical (phase 2 2 s.cov) 2 ∧ Physical (phase 2 2 t.cov) 2 ∧ (∃ F, fidelity sqrtm close 4 s.mu 4 4 s.cov 4 t.mu 4 4 t.cov 2 = .ok F ∧ F < 1) ∧
    ∃ s' t', passiveTransformation s 1 2 (fun _ _ => 0) 2 = .ok s' ∧ passiveTransformation t 1 2 (fun _ _ => 0) 2 = .ok t' ∧ fidelity sqrtm close 2 s'.mu 2 2 s'.cov 2 t'.mu 2 2 t'.cov 2 = .ok 1 := by
  have hp1 : Physical (phase 2 2 tmsExample) 2 := (physical_iff_spectrum _ 2 (by norm_num) _ tmsExample_spec).mpr fun _ => by norm_num
  have hp2 := (physical_vacuum 2 2 (by norm_num)).1
  have hT : (1 - toMatrix 1 2 (fun _ _ => (0 : ℂ)) * (toMatrix 1 2 (fun _ _ => (0 : ℂ)))ᴴ).PosSemidef := by
    have e : toMatrix 1 2 (fun _ _ => (0 : ℂ)) = 0 := by ext i j; rfl
    rw [e, Matrix.zero_mul, sub_zero]
    exact PosSemidef.one
  obtain ⟨s', t', F, F', hs', ht', hF, hF', -⟩ := fidelity_passive (N := 2) (M := 1) hsq close hc (by norm_num) ⟨4, fun _ => 0, tmsExample⟩ (vacuumState 2 2) rfl rfl hp1 hp2 (fun _ _ => 0) hT
  refine ⟨⟨4, fun _ => 0, tmsExample⟩, vacuumState 2 2, rfl, rfl, hp1, hp2, ⟨F, hF, ?_⟩, s', t', hs', ht', ?_⟩
  · obtain ⟨F₁, hF₁, hpos, hle, hone⟩ := fidelity_range (N := 2) hsq close hc (fun _ => 0) (vacuumState 2 2).mu tmsExample (vacuumState 2 2).cov 2 (by norm_num) hp1 hp2
    have e : F = F₁ := Except.ok.inj (hF.symm.trans hF₁)
    refine lt_of_le_of_ne (e ▸ hle) fun h1 => ?_
    have h2 := congrFun (congrFun (hone.mp (e ▸ h1)).2 (.inl 0)) (.inl 1)
    simp [phase, quad, tmsExample, vacuumState, eye] at h2
  · have hP : phase 1 2 (Symp.interferometer 1 2 fun _ _ => 0) = 0 := by
      rw [phase_interferometer]
      ext p q
      rcases p with p | p <;> rcases q with q | q <;> simp [toMatrix]
    obtain ⟨s₁, hs₁, -, hm₁, hc₁⟩ := passive_phase ⟨4, fun _ => 0, tmsExample⟩ 1 2 (fun _ _ => 0) 2 rfl
    obtain ⟨t₁, ht₁, -, hm₂, hc₂⟩ := passive_phase (vacuumState 2 2) 1 2 (fun _ _ => 0) 2 rfl
    obtain rfl := Except.ok.inj (hs'.symm.trans hs₁)
    obtain rfl := Except.ok.inj (ht'.symm.trans ht₁)
    have q1 := physical_passive 1 _ s' rfl _ 2 (by norm_num) hT hp1 hs'
    have q2 := physical_passive 1 _ t' rfl _ 2 (by norm_num) hT hp2 ht'
    obtain ⟨F₁, hF₁, -, -, hone⟩ := fidelity_range (N := 1) hsq close hc s'.mu t'.mu s'.cov t'.cov 2 (by norm_num) q1 q2
    have e : F₁ = 1 := hone.mpr ⟨by rw [hm₁, hm₂, hP]; simp, by rw [hc₁, hc₂, hP]; simp⟩
    rw [e] at hF₁
    exact hF₁

end gaussian

end

end Verif.Props
