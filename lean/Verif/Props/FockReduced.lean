/-
C73: the photon-number distribution of a Gaussian state sums to one, and `reduced_state` describes the partial trace.
-/
import Verif.Props.FockPositive
import Verif.Props.Entanglement
import Verif.Lemmas.FockReduce

set_option linter.unusedSectionVars false
set_option linter.unusedSimpArgs false

namespace Verif.Props
open Verif.Model Verif.Model.Symp Verif.Model.Conv Verif.Model.Fock Verif.Spec Verif.Lemmas Verif.Lemmas.Symp Verif.Lemmas.FPar Matrix

variable {N : ℕ} {cov : ℕ → ℕ → ℝ} {hbar : ℝ} {mu : ℕ → ℝ} {ρ : (Fin N → ℕ) → (Fin N → ℕ) → ℂ}

theorem isFock_iff : IsFockMatrix N mu cov hbar ρ ↔ IsFock (phaseVec N mu) (phase N N cov + (hbar / 2) • 1) hbar ρ := by
  unfold IsFockMatrix IsFock
  have h1 : ∀ α : Fin N → ℂ, cohQuad hbar α = cohQ hbar α := by
    intro α
    funext p
    rcases p with p | p <;> rfl
  have h2 : ∀ α : Fin N → ℂ, ∑ k, Complex.normSq (α k) = ∑ k, ‖α k‖ ^ 2 := fun α =>
    Finset.sum_congr rfl fun k _ => Complex.normSq_eq_norm_sq _
  refine forall_congr' fun α => ?_
  unfold husimiFn hus
  rw [h1, h2]
  rfl

theorem fock_W_posDef (hph : Physical (phase N N cov) hbar) (hh : 0 < hbar) : (phase N N cov + (hbar / 2) • 1).PosDef := by
  have h := physical_posSemidef _ _ hph
  have h2 : ((hbar / 2) • (1 : Matrix (Fin N ⊕ Fin N) (Fin N ⊕ Fin N) ℝ)).PosDef := PosDef.one.smul (by positivity)
  exact h2.posSemidef_add h

theorem fock_isPsd (hh : 0 < hbar) (hph : Physical (phase N N cov) hbar) (hρ : IsFockMatrix N mu cov hbar ρ) : IsPsd ρ :=
  fun S w => fockMatrix_posSemidef hh hph hρ S w

/-- C73: the photon-number probabilities of a Gaussian state sum to one. -/
theorem fockMatrix_trace (hh : 0 < hbar) (hph : Physical (phase N N cov) hbar) (hρ : IsFockMatrix N mu cov hbar ρ) :
    HasSum (fun n => ρ n n) 1 := by
  have hp := fock_isPsd hh hph hρ
  have h := (isFock_iff.mp hρ).trace hp (fock_W_posDef hph hh) hh
  have h1 := Complex.hasSum_ofReal.mpr h
  rw [Complex.ofReal_one] at h1
  exact hs_eq h1 (fun n => (hp.diag n).2) rfl

/-- the chosen modes and the others -/
noncomputable def splitModes {M : ℕ} (f : Fin M → Fin N) (hf : Function.Injective f) : Fin M ⊕ {k : Fin N // k ∉ Set.range f} ≃ Fin N :=
  ((Equiv.ofInjective f hf).sumCongr (Equiv.refl _)).trans (Equiv.Set.sumCompl (Set.range f))

theorem splitModes_inl {M : ℕ} (f : Fin M → Fin N) (hf : Function.Injective f) (l : Fin M) : splitModes f hf (.inl l) = f l := rfl

theorem splitModes_inr {M : ℕ} (f : Fin M → Fin N) (hf : Function.Injective f) (k : {k : Fin N // k ∉ Set.range f}) : splitModes f hf (.inr k) = k := rfl

/-- the occupation numbers of the other modes determine the pair -/
noncomputable def tracePairs {M : ℕ} (f : Fin M → Fin N) (hf : Function.Injective f) (i j : Fin M → ℕ) : ({k : Fin N // k ∉ Set.range f} → ℕ) ≃
    {x : (Fin N → ℕ) × (Fin N → ℕ) // x.1 ∘ f = i ∧ x.2 ∘ f = j ∧ ∀ k, k ∉ Set.range f → x.1 k = x.2 k} where
  toFun n := ⟨(Sum.elim i n ∘ (splitModes f hf).symm, Sum.elim j n ∘ (splitModes f hf).symm), by
    refine ⟨?_, ?_, ?_⟩
    · funext l
      simp [← splitModes_inl f hf l]
    · funext l
      simp [← splitModes_inl f hf l]
    · intro k hk
      have : (splitModes f hf).symm k = .inr ⟨k, hk⟩ := by rw [Equiv.symm_apply_eq, splitModes_inr]
      simp only [Function.comp, this, Sum.elim_inr]⟩
  invFun x := fun k => x.1.1 k
  left_inv n := by
    funext k
    have : (splitModes f hf).symm k = .inr k := by rw [Equiv.symm_apply_eq, splitModes_inr]
    simp only [Function.comp, this, Sum.elim_inr]
  right_inv x := by
    obtain ⟨⟨p, q⟩, h1, h2, h3⟩ := x
    refine Subtype.ext (Prod.ext ?_ ?_)
    · funext k
      obtain ⟨l, rfl⟩ := (splitModes f hf).surjective k
      simp only [Function.comp, Equiv.symm_apply_apply]
      rcases l with l | l
      · rw [Sum.elim_inl, splitModes_inl, ← h1]; rfl
      · rw [Sum.elim_inr, splitModes_inr]
    · funext k
      obtain ⟨l, rfl⟩ := (splitModes f hf).surjective k
      simp only [Function.comp, Equiv.symm_apply_apply]
      rcases l with l | l
      · rw [Sum.elim_inl, splitModes_inl, ← h2]; rfl
      · rw [Sum.elim_inr, splitModes_inr]; exact h3 l l.2

theorem fock_partialTrace {M : ℕ} (f : Fin M → Fin N) (hf : Function.Injective f) (hh : 0 < hbar) (hph : Physical (phase N N cov) hbar)
    (hρ : IsFockMatrix N mu cov hbar ρ) :
    ∃ ρ', IsPartialTrace f ρ ρ' ∧ IsFock (resV (phaseVec N mu) f) (resM (phase N N cov + (hbar / 2) • 1) f) hbar ρ' := by
  classical
  set e := splitModes f hf with he
  have hp := fock_isPsd hh hph hρ
  have h1 := (isFock_iff.mp hρ).relabel e
  have hp1 : IsPsd fun i j : Fin M ⊕ {k : Fin N // k ∉ Set.range f} → ℕ => ρ (i ∘ e.symm) (j ∘ e.symm) :=
    hp.comp ⟨fun i : Fin M ⊕ {k : Fin N // k ∉ Set.range f} → ℕ => i ∘ e.symm, e.symm.surjective.injective_comp_right⟩
  have hW : (resM (phase N N cov + (hbar / 2) • 1) e).PosDef :=
    (fock_W_posDef hph hh).submatrix (Sum.map_injective.mpr ⟨e.injective, e.injective⟩)
  obtain ⟨ρ', h2, h3⟩ := h1.partialTrace hp1 hW hh
  refine ⟨ρ', fun i j => ?_, ?_⟩
  · rw [← (tracePairs f hf i j).hasSum_iff]
    exact h2 i j
  · have ha : resV (resV (phaseVec N mu) e) Sum.inl = resV (phaseVec N mu) f := by
      funext p
      rcases p with p | p <;> rfl
    have hb : resM (resM (phase N N cov + (hbar / 2) • 1) e) Sum.inl = resM (phase N N cov + (hbar / 2) • 1) f := by
      ext p q
      rcases p with p | p <;> rcases q with q | q <;> rfl
    rwa [ha, hb] at h3

/-- the reduced state is physical, and its density matrix the partial trace -/
theorem reduction_trace (s r : GState ℝ) (modes : List ℕ) (hn : modes.Nodup) (hb : ∀ m ∈ modes, m < N)
    (hr : IsReduction N s modes r) (hh : 0 < hbar) (hph : Physical (phase N N s.cov) hbar) (hρ : IsFockMatrix N s.mu s.cov hbar ρ) :
    ∃ ρ', Physical (phase modes.length modes.length r.cov) hbar ∧ IsFockMatrix modes.length r.mu r.cov hbar ρ' ∧
      IsPartialTrace (fun a : Fin modes.length => ⟨modes[a], hb _ (List.getElem_mem _)⟩) ρ ρ' := by
  let f : Fin modes.length → Fin N := fun a => ⟨modes[a], hb _ (List.getElem_mem _)⟩
  have hf : Function.Injective f := by
    intro a b hab
    have h1 : modes[a] = modes[b] := congrArg Fin.val hab
    exact Fin.ext ((hn.getElem_inj_iff).mp h1)
  have hfe : (fun a : Fin modes.length => (⟨modes.getD a 0, hb _ (by rw [List.getD_eq_getElem _ _ a.2]; exact List.getElem_mem _)⟩ : Fin N)) = f := by
    funext a
    exact Fin.ext (List.getD_eq_getElem _ _ a.2)
  have hsub := reduction_submatrix s r modes hb hr
  dsimp only at hsub
  rw [hfe] at hsub
  obtain ⟨ρ', h1, h2⟩ := fock_partialTrace f hf hh hph hρ
  refine ⟨ρ', ?_, ?_, h1⟩
  · rw [hsub]
    exact physical_submatrix _ _ hph f hf
  · rw [isFock_iff, hsub]
    have e1 : phaseVec modes.length r.mu = resV (phaseVec N s.mu) f := by
      funext p
      rcases p with p | p
      · have := (hr.mean p p.2).1
        rw [List.getD_eq_getElem _ _ p.2] at this
        exact this
      · have := (hr.mean p p.2).2
        rw [List.getD_eq_getElem _ _ p.2] at this
        exact this
    have hinj : Function.Injective (Sum.map f f) := Sum.map_injective.mpr ⟨hf, hf⟩
    have e2 : (phase N N s.cov).submatrix (Sum.map f f) (Sum.map f f) + (hbar / 2) • 1 = resM (phase N N s.cov + (hbar / 2) • 1) f := by
      unfold resM
      ext p q
      simp only [Matrix.add_apply, Matrix.submatrix_apply, Matrix.smul_apply, Matrix.one_apply, hinj.eq_iff]
    rw [e1, e2]
    exact h2

/-- C73. For a physical Gaussian state and a list of distinct modes, the state returned by `reduced_state` is physical and its density matrix in the Fock basis is
the partial trace over the modes which are not listed; both are matrices of trace one. -/
theorem reducedState_trace (s : GState ℝ) (hs : s.len = 2 * N) (modes : List ℕ) (hne : modes ≠ []) (hn : modes.Nodup) (hb : ∀ m ∈ modes, m < N)
    (hh : 0 < hbar) (hph : Physical (phase N N s.cov) hbar) (hρ : IsFockMatrix N s.mu s.cov hbar ρ) :
    ∃ r ρ', reducedState s modes = .ok r ∧ Physical (phase modes.length modes.length r.cov) hbar ∧ IsFockMatrix modes.length r.mu r.cov hbar ρ' ∧
      IsPartialTrace (fun a : Fin modes.length => ⟨modes[a], hb _ (List.getElem_mem _)⟩) ρ ρ' ∧
      HasSum (fun n => ρ n n) 1 ∧ HasSum (fun n => ρ' n n) 1 := by
  obtain ⟨r, hr, hred⟩ := reducedState_eq N s hs modes hne hb
  obtain ⟨ρ', h1, h2, h3⟩ := reduction_trace s r modes hn hb hred hh hph hρ
  exact ⟨r, ρ', hr, h1, h2, h3, fockMatrix_trace hh hph hρ, fockMatrix_trace hh h1 h2⟩

/-- diagonal elements of the partial trace are marginal probabilities -/
theorem partialTrace_marginal {M : ℕ} {f : Fin M → Fin N} {ρ' : (Fin M → ℕ) → (Fin M → ℕ) → ℂ} (h : IsPartialTrace f ρ ρ') (i : Fin M → ℕ) :
    HasSum (fun n : {n : Fin N → ℕ // n ∘ f = i} => ρ n n) (ρ' i i) := by
  let E : {n : Fin N → ℕ // n ∘ f = i} ≃ {x : (Fin N → ℕ) × (Fin N → ℕ) // x.1 ∘ f = i ∧ x.2 ∘ f = i ∧ ∀ k, k ∉ Set.range f → x.1 k = x.2 k} :=
    ⟨fun n => ⟨(n, n), n.2, n.2, fun _ _ => rfl⟩, fun x => ⟨x.1.1, x.2.1⟩, fun _ => rfl, fun x => by
      obtain ⟨⟨p, q⟩, h1, h2, h3⟩ := x
      refine Subtype.ext (Prod.ext rfl ?_)
      funext k
      by_cases hk : k ∈ Set.range f
      · obtain ⟨l, rfl⟩ := hk
        exact congrFun (h1.trans h2.symm) l
      · exact h3 k hk⟩
  rw [← E.symm.hasSum_iff]
  refine hs_eq (h i i) (fun x => ?_) rfl
  have : (E (E.symm x)) = x := E.apply_symm_apply x
  have h1 : (E (E.symm x)).1.1 = x.1.1 := by rw [this]
  have h2 : (E (E.symm x)).1.2 = x.1.2 := by rw [this]
  show ρ (E (E.symm x)).1.1 (E (E.symm x)).1.2 = _
  rw [h1, h2]

/-- C73: the array returned by `probabilities` is a sub-distribution: its entries are non-negative and sum to at most one. -/
theorem probabilities_sum {sjunk : ℕ → ℂ} (hN : N ≠ 0) (closeR : ℝ → ℝ → Bool) (mu : ℕ → ℝ) (cov : ℕ → ℕ → ℝ) (hbar atol : ℝ) (hh : 0 < hbar)
    (hph : Physical (phase N N cov) hbar) (hcp : Checks.isPureCov closeR (2 * N) (2 * N) cov hbar atol = true → ((2 / hbar) • phase N N cov).det = 1)
    (htol : (∀ i < 2 * N, mu i = 0) ∨ 1 / 10 ^ 10 ≤ Real.sqrt ((∑ i ∈ Finset.range (2 * N), mu i ^ 2) / (2 * hbar)))
    (cutoff : ℕ) (parallel : Bool) (hc : 0 < cutoff) (hc2 : cutoff ≤ 1000) :
    ∃ P, probabilities (sqrtTable sjunk) (isClose 0 0) closeR N mu cov cutoff parallel hbar atol = .ok P ∧
      (∀ n : Fin N → Fin cutoff, 0 ≤ P (List.ofFn fun k => (n k : ℕ))) ∧ ∑ n : Fin N → Fin cutoff, P (List.ofFn fun k => (n k : ℕ)) ≤ 1 := by
  obtain ⟨ρ, hF, h0, h⟩ := probabilities_correct (sjunk := sjunk) hN closeR mu cov hbar atol hh hph hcp htol
  obtain ⟨P, hP, hPv⟩ := h cutoff parallel hc hc2
  have hv : ∀ n : Fin N → Fin cutoff, P (List.ofFn fun k => (n k : ℕ)) = (ρ (fun k => n k) fun k => n k).re := by
    intro n
    rw [← hPv _ fun k => (n k).2, Complex.ofReal_re]
  refine ⟨P, hP, fun n => by rw [hv]; exact (h0 _).1, ?_⟩
  have htr := Complex.hasSum_re (fockMatrix_trace hh hph hF)
  have hinj : Function.Injective fun (n : Fin N → Fin cutoff) (k : Fin N) => ((n k : Fin cutoff) : ℕ) := by
    intro a b hab
    funext k
    exact Fin.ext (congrFun hab k)
  have := sum_le_hasSum (Finset.univ.map ⟨_, hinj⟩) (fun n _ => (h0 n).1) htr
  rw [Finset.sum_map] at this
  simp only [hv]
  exact this

/-- the hypotheses of `reducedState_trace` hold for the two-mode squeezed vacuum -/
example : ∃ r ρ', reducedState { len := 4, mu := fun _ => 0, cov := tmsExample } [1] = .ok r ∧
    IsFockMatrix 1 r.mu r.cov 2 ρ' ∧ HasSum (fun n => ρ' n n) 1 := by
  have hph : Physical (phase 2 2 tmsExample) 2 := (physical_iff_spectrum _ 2 (by norm_num) _ tmsExample_spec).mpr fun _ => by norm_num
  obtain ⟨ρ, pref, P, -, hρ, -⟩ := fock_gram (N := 2) (fun _ => 0) (by norm_num : (0 : ℝ) < 2) hph
  obtain ⟨r, ρ', h1, -, h2, -, -, h3⟩ := reducedState_trace (N := 2) { len := 4, mu := fun _ => 0, cov := tmsExample } rfl [1] (by simp) (by simp)
    (by simp) (by norm_num) hph hρ
  exact ⟨r, ρ', h1, h2, h3⟩

end Verif.Props
