/-
C20: the click probabilities are the photon-number probabilities of the Gaussian state, summed over the patterns which make exactly the listed detectors click.
-/
import Verif.Props.Threshold
import Verif.Props.Tvd

set_option linter.unusedSectionVars false
set_option linter.unusedSimpArgs false

namespace Verif.Props
open Verif.Model Verif.Model.Symp Verif.Model.Conv Verif.Model.Tor Verif.Model.Fock Verif.Spec Verif.Lemmas Verif.Lemmas.Symp Verif.Lemmas.FPar Verif.Lemmas.Chol Matrix

variable {N : ℕ} {cov : ℕ → ℕ → ℝ} {hbar : ℝ} {mu : ℕ → ℝ} {ρ : (Fin N → ℕ) → (Fin N → ℕ) → ℂ}

/-- numbers below `M` -/
def finRange (M : ℕ) : Fin M ≃ (Finset.range M : Finset ℕ) where
  toFun k := ⟨k, Finset.mem_range.mpr k.2⟩
  invFun k := ⟨k, Finset.mem_range.mp k.2⟩
  left_inv _ := rfl
  right_inv _ := rfl

theorem husimi_vacuum (M : ℕ) (mu : ℕ → ℝ) (cov : ℕ → ℕ → ℝ) (hbar : ℝ) : husimiFn M mu cov hbar 0 = vacProbD M mu cov hbar (Finset.range M) := by
  let e : Fin M ⊕ Fin M ≃ (Finset.range M : Finset ℕ) ⊕ (Finset.range M : Finset ℕ) := Equiv.sumCongr (finRange M) (finRange M)
  have hW : (phase M M cov + (hbar / 2) • 1) = (modeBlock M cov (Finset.range M) + (hbar / 2) • 1).submatrix e e := by
    ext p q
    simp only [Matrix.add_apply, Matrix.submatrix_apply, Matrix.smul_apply, Matrix.one_apply, e.injective.eq_iff]
    congr 1
    rcases p with p | p <;> rcases q with q | q <;> rfl
  have hd : cohQuad hbar (0 : Fin M → ℂ) - phaseVec M mu = -((modeVec M mu (Finset.range M)) ∘ e) := by
    funext p
    rcases p with p | p <;> simp [cohQuad, phaseVec, modeVec, modeQuad, e, finRange, quad]
  have hq : (-((modeVec M mu (Finset.range M)) ∘ e)) ⬝ᵥ (phase M M cov + (hbar / 2) • 1)⁻¹ *ᵥ (-((modeVec M mu (Finset.range M)) ∘ e)) =
      modeVec M mu (Finset.range M) ⬝ᵥ (modeBlock M cov (Finset.range M) + (hbar / 2) • 1)⁻¹ *ᵥ modeVec M mu (Finset.range M) := by
    rw [hW, Matrix.inv_submatrix_equiv, Matrix.mulVec_neg, neg_dotProduct_neg, Matrix.submatrix_mulVec_equiv]
    have : (modeVec M mu (Finset.range M) ∘ e) ∘ e.symm = modeVec M mu (Finset.range M) := by funext x; simp
    rw [this, comp_equiv_dotProduct_comp_equiv]
  have hdet : ((1 / hbar) • (phase M M cov + (hbar / 2) • (1 : Matrix (Fin M ⊕ Fin M) (Fin M ⊕ Fin M) ℝ))).det =
      Matrix.det (Matrix.of fun p q : (Finset.range M : Finset ℕ) ⊕ (Finset.range M : Finset ℕ) =>
        (cov (modeQuad M (Finset.range M) p) (modeQuad M (Finset.range M) q) + if p = q then hbar / 2 else 0) / hbar) := by
    rw [← Matrix.det_submatrix_equiv_self e, hW]
    congr 1
    ext p q
    simp only [Matrix.smul_apply, Matrix.submatrix_apply, Matrix.add_apply, Matrix.one_apply, Matrix.of_apply, modeBlock, e.injective.eq_iff, smul_eq_mul]
    split_ifs <;> ring
  unfold husimiFn vacProbD vacProb
  dsimp only
  rw [hd, hq, hdet, mul_one_div]
  congr 2
  ring

/-- The vacuum probabilities of the specification are those of the density matrix: the total weight of the photon-number patterns with no photon in the modes of `S`. -/
theorem vacProb_fock (hh : 0 < hbar) (hph : Physical (phase N N cov) hbar) (hρ : IsFockMatrix N mu cov hbar ρ) (S : Finset ℕ) (hS : S ⊆ Finset.range N) :
    HasSum (fun n : {n : Fin N → ℕ // ∀ k : Fin N, (k : ℕ) ∈ S → n k = 0} => ρ n n) ((vacProbD N mu cov hbar S : ℝ) : ℂ) := by
  by_cases hne : S = ∅
  · subst hne
    rw [vacProbD_empty]
    have h := fockMatrix_trace hh hph hρ
    let E : {n : Fin N → ℕ // ∀ k : Fin N, (k : ℕ) ∈ (∅ : Finset ℕ) → n k = 0} ≃ (Fin N → ℕ) := Equiv.subtypeUnivEquiv (by simp)
    rw [← E.hasSum_iff] at h
    exact hs_eq h (fun n => rfl) (by norm_num)
  · let s : GState ℝ := { len := 2 * N, mu := mu, cov := cov }
    let K := S.toList
    have hK : K.Nodup := S.nodup_toList
    have hKS : K.toFinset = S := S.toList_toFinset
    have hb : ∀ m ∈ K, m < N := fun m hm => Finset.mem_range.mp (hS (Finset.mem_toList.mp hm))
    have hKne : K ≠ [] := by
      intro h
      exact hne (by rw [← hKS, h]; rfl)
    obtain ⟨r, -, hr⟩ := reducedState_eq N s rfl K hKne hb
    obtain ⟨ρ', h1, h2, h3⟩ := reduction_trace s r K hK hb hr hh hph hρ
    have hm := partialTrace_marginal h3 0
    rw [(fockMatrix_vacuum hh h1 h2).1, husimi_vacuum, vacProbD_reduction N s r K hK hr hbar _ subset_rfl] at hm
    have himg : ((Finset.range K.length).image fun x => K.getD x 0) = S := by
      rw [← hKS]
      ext x
      simp only [List.mem_toFinset, Finset.mem_image, Finset.mem_range]
      constructor
      · rintro ⟨y, hy, rfl⟩
        rw [List.getD_eq_getElem _ _ hy]; exact List.getElem_mem _
      · intro hx
        obtain ⟨y, hy, e⟩ := List.getElem_of_mem hx
        exact ⟨y, hy, by rw [List.getD_eq_getElem _ _ hy, e]⟩
    rw [himg] at hm
    have hiff : ∀ n : Fin N → ℕ, (∀ k : Fin N, (k : ℕ) ∈ S → n k = 0) ↔ n ∘ (fun a : Fin K.length => (⟨K[a], hb _ (List.getElem_mem _)⟩ : Fin N)) = 0 := by
      intro n
      constructor
      · intro h
        funext a
        exact h _ (Finset.mem_toList.mp (List.getElem_mem _))
      · intro h k hk
        rw [← hKS] at hk
        obtain ⟨y, hy, e⟩ := List.getElem_of_mem (List.mem_toFinset.mp hk)
        have := congrFun h ⟨y, hy⟩
        simp only [Function.comp, Pi.zero_apply] at this
        rw [← this]
        congr 1
        exact Fin.ext e.symm
    let E := Equiv.subtypeEquivRight hiff
    rw [← E.hasSum_iff] at hm
    exact hm

theorem ite_and_mul (P Q : Prop) [Decidable P] [Decidable Q] [Decidable (P ∧ Q)] :
    (if P ∧ Q then (1 : ℝ) else 0) = (if P then 1 else 0) * if Q then 1 else 0 := by
  by_cases hP : P <;> by_cases hQ : Q <;> simp [hP, hQ]

/-- Inclusion–exclusion, pointwise: exactly the detectors of `C` click. -/
theorem click_indicator (C : Finset ℕ) (z : ℕ → Prop) [DecidablePred z] :
    ∑ Z ∈ C.powerset, (-1 : ℝ) ^ Z.card * (if ∀ k ∈ (Finset.range N \ C) ∪ Z, z k then 1 else 0) =
      if (∀ k ∈ Finset.range N \ C, z k) ∧ ∀ k ∈ C, ¬ z k then 1 else 0 := by
  have h1 : ∀ Z ∈ C.powerset, (-1 : ℝ) ^ Z.card * (if ∀ k ∈ (Finset.range N \ C) ∪ Z, z k then 1 else 0) =
      (if ∀ k ∈ Finset.range N \ C, z k then 1 else 0) * ∏ k ∈ Z, (-(if z k then 1 else 0)) := by
    intro Z _
    rw [Finset.prod_neg, Finset.prod_ite_zero]
    have : (∀ k ∈ (Finset.range N \ C) ∪ Z, z k) ↔ (∀ k ∈ Finset.range N \ C, z k) ∧ ∀ k ∈ Z, z k := by
      simp only [Finset.mem_union]
      constructor
      · exact fun h => ⟨fun k hk => h k (.inl hk), fun k hk => h k (.inr hk)⟩
      · rintro ⟨h, h'⟩ k (hk | hk)
        exacts [h k hk, h' k hk]
    rw [Finset.prod_const_one]
    rw [if_congr this rfl rfl, ite_and_mul]
    ring
  rw [Finset.sum_congr rfl h1, ← Finset.mul_sum, ← Finset.prod_one_add]
  have h2 : ∏ k ∈ C, (1 + -(if z k then (1 : ℝ) else 0)) = if ∀ k ∈ C, ¬ z k then 1 else 0 := by
    rw [← Finset.prod_const_one (s := C), ← Finset.prod_ite_zero]
    refine Finset.prod_congr rfl fun k _ => ?_
    split_ifs <;> norm_num
  rw [h2]
  rw [ite_and_mul]

theorem hasSum_restrict {σ : Type} (p : σ → ℝ) (q : σ → Prop) [DecidablePred q] (a : ℝ) :
    HasSum (fun n : {n // q n} => p n) a ↔ HasSum (fun n => p n * if q n then 1 else 0) a := by
  have : (fun n => p n * if q n then 1 else 0) = Set.indicator {n | q n} p := by
    funext n
    simp only [Set.indicator, Set.mem_ofPred_eq]
    split_ifs <;> simp_all
  rw [this]
  exact hasSum_subtype_iff_indicator (s := {n | q n})

/-- the specification's click probability is the weight of the patterns with photons exactly in the modes of `C` -/
theorem clickProb_fock (hh : 0 < hbar) (hph : Physical (phase N N cov) hbar) (hρ : IsFockMatrix N mu cov hbar ρ) (C : Finset ℕ) (hC : C ⊆ Finset.range N) :
    HasSum (fun n : {n : Fin N → ℕ // ∀ k : Fin N, 0 < n k ↔ (k : ℕ) ∈ C} => (ρ n n).re) (clickProb N mu cov hbar C) := by
  classical
  have hv : ∀ Z ∈ C.powerset, HasSum (fun n : Fin N → ℕ => (-1 : ℝ) ^ Z.card * ((ρ n n).re * if ∀ k : Fin N, (k : ℕ) ∈ (Finset.range N \ C) ∪ Z → n k = 0 then 1 else 0))
      ((-1) ^ Z.card * vacProbD N mu cov hbar ((Finset.range N \ C) ∪ Z)) := by
    intro Z hZ
    have h := Complex.hasSum_re (vacProb_fock hh hph hρ ((Finset.range N \ C) ∪ Z)
      (Finset.union_subset Finset.sdiff_subset ((Finset.mem_powerset.mp hZ).trans hC)))
    rw [Complex.ofReal_re] at h
    exact ((hasSum_restrict (fun n => (ρ n n).re) _ _).mp h).mul_left _
  have hs := hasSum_sum hv
  rw [hasSum_restrict (fun n => (ρ n n).re)]
  unfold clickProb
  refine hs_eq hs (fun n => ?_) rfl
  have h := click_indicator (N := N) C (fun k => ∀ h : k < N, n ⟨k, h⟩ = 0)
  have e1 : ∀ Z ∈ C.powerset, (-1 : ℝ) ^ Z.card * ((ρ n n).re * if ∀ k : Fin N, (k : ℕ) ∈ (Finset.range N \ C) ∪ Z → n k = 0 then 1 else 0) =
      (ρ n n).re * ((-1 : ℝ) ^ Z.card * (if ∀ k ∈ (Finset.range N \ C) ∪ Z, ∀ h : k < N, n ⟨k, h⟩ = 0 then 1 else 0)) := by
    intro Z _
    have : (∀ k : Fin N, (k : ℕ) ∈ (Finset.range N \ C) ∪ Z → n k = 0) ↔ (∀ k ∈ (Finset.range N \ C) ∪ Z, ∀ h : k < N, n ⟨k, h⟩ = 0) :=
      ⟨fun h k hk hkN => h ⟨k, hkN⟩ hk, fun h k hk => h k hk k.2⟩
    simp only [this]
    ring
  rw [Finset.sum_congr rfl e1, ← Finset.mul_sum, h]
  congr 1
  refine if_congr ?_ rfl rfl
  constructor
  · intro h
    refine ⟨fun k hk hkN => ?_, fun k hk hz => ?_⟩
    · have := (h ⟨k, hkN⟩).not.mpr (Finset.mem_sdiff.mp hk).2
      omega
    · have hkN := Finset.mem_range.mp (hC hk)
      have := (h ⟨k, hkN⟩).mpr hk
      have := hz hkN
      omega
  · rintro ⟨h1, h2⟩ k
    by_cases hk : (k : ℕ) ∈ C
    · have := h2 k hk
      push Not at this
      obtain ⟨_, h0⟩ := this
      exact ⟨fun _ => hk, fun _ => Nat.pos_of_ne_zero h0⟩
    · have := h1 k (Finset.mem_sdiff.mpr ⟨Finset.mem_range.mpr k.2, hk⟩) k.2
      exact ⟨fun h => by simp at this; omega, fun h => absurd h hk⟩

/-- C20. `threshold_detection_prob` returns, for a physical Gaussian state with Fock matrix `ρ` and a pattern of zeros and ones, the total probability of the
photon-number patterns which have photons exactly in the modes where the pattern has a one; in particular it is real and non-negative and at most one. -/
theorem thresholdProb_fock {chol : ℕ → (ℕ → ℕ → ℂ) → Except PyErr (ℕ → ℕ → ℂ)} (hchol : CholeskyContract chol) (closeMu : ℝ → Bool) (hc : ∀ x, closeMu x = true ↔ x = 0)
    (s : GState ℝ) (hs : s.len = 2 * N) (hh : 0 < hbar) (hV : Physical (phase N N s.cov) hbar) (hρ : IsFockMatrix N s.mu s.cov hbar ρ)
    (pattern : List ℕ) (hl : pattern.length = N) (h01 : ∀ x ∈ pattern, x = 0 ∨ x = 1) :
    ∃ p : ℝ, thresholdProb chol closeMu s pattern hbar = .ok (p : ℂ) ∧
      HasSum (fun n : {n : Fin N → ℕ // ∀ k : Fin N, 0 < n k ↔ pattern.getD k 0 = 1} => ρ n n) (p : ℂ) ∧ 0 ≤ p ∧ p ≤ 1 := by
  have hcorr := thresholdProb_correct hchol closeMu N s hs hbar hh hV pattern hl h01
  set μ : ℕ → ℝ := if ∀ i < 2 * N, closeMu (s.mu i) = true then fun _ => 0 else s.mu with hμ
  have hmu : ∀ i < 2 * N, μ i = s.mu i := by
    intro i hi
    rw [hμ]
    split_ifs with h
    · exact ((hc _).mp (h i hi)).symm
    · rfl
  have hpv : phaseVec N μ = phaseVec N s.mu := by
    funext p
    rcases p with p | p
    · exact hmu p (by omega)
    · exact hmu (N + p) (by omega)
  have hρ' : IsFockMatrix N μ s.cov hbar ρ := by
    rw [isFock_iff] at hρ ⊢
    rwa [hpv]
  have hsub : clickSet pattern ⊆ Finset.range N := by rw [← hl]; exact Finset.filter_subset _ _
  have h := clickProb_fock hh hV hρ' (clickSet pattern) hsub
  have hpsd := fock_isPsd hh hV hρ
  have hiff : ∀ n : Fin N → ℕ, (∀ k : Fin N, 0 < n k ↔ pattern.getD k 0 = 1) ↔ ∀ k : Fin N, 0 < n k ↔ (k : ℕ) ∈ clickSet pattern := by
    intro n
    refine forall_congr' fun k => ?_
    have hk : (k : ℕ) < pattern.length := by rw [hl]; exact k.2
    simp only [clickSet, Finset.mem_filter, Finset.mem_range, hk, true_and]
  let E := Equiv.subtypeEquivRight hiff
  have h2 := Complex.hasSum_ofReal.mpr (E.hasSum_iff.mpr h)
  refine ⟨_, hcorr, hs_eq h2 (fun n => (hpsd.diag _).2) rfl, h.nonneg fun n => (hpsd.diag _).1, ?_⟩
  have htr := Complex.hasSum_re (fockMatrix_trace hh hV hρ)
  rw [Complex.one_re] at htr
  exact hasSum_le_inj (Subtype.val : {n : Fin N → ℕ // ∀ k : Fin N, 0 < n k ↔ (k : ℕ) ∈ clickSet pattern} → _) Subtype.val_injective
    (fun n _ => (hpsd.diag _).1) (fun n => le_rfl) h htr

/-- the two-mode squeezed vacuum meets the hypotheses -/
example (pattern : List ℕ) (hl : pattern.length = 2) (h01 : ∀ x ∈ pattern, x = 0 ∨ x = 1) :
    ∃ p : ℝ, thresholdProb (fun d M => .ok (quadCholesky (fun _ _ => 0) (List.range d) 0 d M)) (fun x => decide (x = 0))
      { len := 4, mu := fun _ => 0, cov := tmsExample } pattern 2 = .ok (p : ℂ) ∧ 0 ≤ p ∧ p ≤ 1 := by
  have hph : Physical (phase 2 2 tmsExample) 2 := (physical_iff_spectrum _ 2 (by norm_num) _ tmsExample_spec).mpr fun _ => by norm_num
  obtain ⟨ρ, pref, P, -, hρ, -⟩ := fock_gram (N := 2) (fun _ => 0) (by norm_num : (0 : ℝ) < 2) hph
  obtain ⟨p, h1, -, h2, h3⟩ := thresholdProb_fock (N := 2) cholesky_contract (fun x => decide (x = 0)) (by simp) { len := 4, mu := fun _ => 0, cov := tmsExample } rfl
    (by norm_num) hph hρ pattern hl h01
  exact ⟨p, h1, h2, h3⟩

end Verif.Props
