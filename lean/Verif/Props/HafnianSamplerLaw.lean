/-
C92: the law of the patterns that `generate_hafnian_sample` returns.
-/
import Verif.Props.BornSampler
import Verif.Props.Mixture
import Verif.Lemmas.OutcomeChain
import Verif.Lemmas.HetChange

set_option linter.style.longLine false
set_option linter.unusedSectionVars false
set_option linter.unusedSimpArgs false

namespace Verif.Props
open Verif.Model Verif.Model.Symp Verif.Model.Conv Verif.Model.Means Verif.Model.Smp Verif.Model.Dec Verif.Model.Checks Verif.Spec Verif.Lemmas Verif.Lemmas.Symp
  Verif.Lemmas.FockS Verif.Lemmas.Outc Verif.Lemmas.Chain Verif.Lemmas.GInt Matrix MeasureTheory

/-- a vector of `2 M` numbers as a sequence -/
noncomputable def seq {m : ℕ} (x : Fin m → ℝ) (k : ℕ) : ℝ := if h : k < m then x ⟨k, h⟩ else 0

theorem seq_quad (M : ℕ) (y : Fin M ⊕ Fin M → ℝ) (p : Fin M ⊕ Fin M) : seq (fun k => y ((quadEquiv M).symm k)) (quad M p) = y p := by
  unfold seq
  rw [dif_pos (quad_lt M p)]
  refine congrArg y ?_
  rw [Equiv.symm_apply_eq]
  rfl

/-- the means of the pure state -/
noncomputable def meanAt (M : ℕ) (mu : ℕ → ℝ) (W : RArr) (x : ℕ → ℝ) (i : ℕ) : ℝ := mu i + ∑ j ∈ Finset.range (2 * M), W i j * x j

/-- the heterodyne outcomes -/
noncomputable def hetAt (M : ℕ) (mean : ℕ → ℝ) (C : RArr) (y : ℕ → ℝ) (j : ℕ) : ℂ := Spec.amp M (fun i => mean i + ∑ j ∈ Finset.range (2 * M), C i j * y j) j / 2

theorem hetAt_amps (M : ℕ) (mean : ℕ → ℝ) (C : RArr) (y : Fin M ⊕ Fin M → ℝ) (l : Fin M) :
    hetAt M mean C (seq fun k => y ((quadEquiv M).symm k)) l = amps (phaseVec M mean + phase M M C *ᵥ y) l := by
  have h : ∀ p : Fin M ⊕ Fin M, mean (quad M p) + ∑ j ∈ Finset.range (2 * M), C (quad M p) j * seq (fun k => y ((quadEquiv M).symm k)) j = (phaseVec M mean + phase M M C *ᵥ y) p := by
    intro p
    rw [← sum_quad M fun j => C (quad M p) j * seq (fun k => y ((quadEquiv M).symm k)) j]
    simp only [seq_quad]
    rfl
  unfold hetAt amps
  rw [← h, ← h]
  congr 1
  apply Complex.ext <;> simp [Spec.amp, quad]

theorem stepProb_congr {M : ℕ} (ρ : (Fin M → ℕ) → (Fin M → ℕ) → ℂ) (cutoff : ℕ) (n : ℕ → ℕ) (k : ℕ) (α α' : ℕ → ℂ) (h : ∀ l < M, α l = α' l) :
    stepProb ρ cutoff n k α = stepProb ρ cutoff n k α' := by
  unfold stepProb stepTotal
  rw [outcomeDensity_congr ρ (k + 1) n n α α' (fun _ _ => rfl) fun l _ hl => h l hl]
  congr 1
  exact Finset.sum_congr rfl fun j _ => outcomeDensity_congr ρ (k + 1) _ _ α α' (fun _ _ => rfl) fun l _ hl => h l hl

/-- a pure Gaussian state: its wave function, with all outcome amplitudes summable -/
theorem pure_wave {M : ℕ} {T : RArr} (hT : Physical (phase M M T) 2) (hdet : (phase M M T).det = 1) (mu : ℕ → ℝ) (ρ : (Fin M → ℕ) → (Fin M → ℕ) → ℂ) (hρ : IsFockMatrix M mu T 2 ρ) :
    ∃ ψ : (Fin M → ℕ) → ℂ, (ρ = fun i j => ψ i * (starRingEnd ℂ) (ψ j)) ∧ ∀ m ≤ M, ∀ n α, Summable fun i => mixAmp m n α i * ψ i := by
  obtain ⟨A, γ, hA, hs, -, -, hF⟩ := pure_setup mu (by norm_num : (0 : ℝ) < 2) hT (by norm_num [hdet])
  refine ⟨psiFn M mu T 2 A γ, fockMatrix_unique hρ hF, fun m hm n α => ?_⟩
  obtain ⟨r, rfl⟩ := Nat.exists_eq_add_of_le hm
  have h := (mix_hasSum (m := m) (r := r) A γ (fun i hi j hj => hs i (by omega) j (by omega)) n α).mul_left
    (Complex.exp ((starRingEnd ℂ) (pureExp (m + r) mu 2 A)) / ((Real.sqrt (Real.sqrt (Wmat (m + r) T 2).det) : ℝ) : ℂ))
  refine h.summable.congr fun a => ?_
  unfold psiFn
  push_cast
  rw [mul_left_comm, div_mul_div_comm]

/-- the sum over the outcomes of the heterodyne detection of a pure state -/
theorem pure_sampler {M : ℕ} {T C : RArr} (hT : Physical (phase M M T) 2) (hdet : (phase M M T).det = 1) (hC : phase M M C * (phase M M C)ᵀ = phase M M T + 1) (mean : ℕ → ℝ)
    (ρ : (Fin M → ℕ) → (Fin M → ℕ) → ℂ) (hρ : IsFockMatrix M mean T 2 ρ) (cutoff : ℕ) (n : ℕ → ℕ) (hn : ∀ k, n k ≤ cutoff) :
    ENNReal.ofReal (ρ (fun k => n k) fun k => n k).re ≤
      ∫⁻ y, ∏ k : Fin M, ENNReal.ofReal (stepProb ρ cutoff n k (hetAt M mean C (seq y))) ∂stdNormal (Fin (2 * M)) := by
  obtain ⟨ψ, hψ, hsum⟩ := pure_wave hT hdet mean ρ hρ
  have hext : ∀ k < M, Measurable fun a : Fin M → ℂ => extC a k := by
    intro k hk
    unfold extC
    simp only [hk, dif_pos]
    fun_prop
  have hm : ∀ m n, Measurable fun a : Fin M → ℂ => outcomeDensity ρ m n (extC a) := by
    intro m n
    refine outcomeDensity_measurable (fun _ => ρ) m n extC (fun _ _ => measurable_const) hext fun a => ?_
    rw [hψ]
    exact (pure_hasSum ψ m n (extC a) _ (pure_summable ψ hsum m n (extC a)).hasSum).summable
  have hF : Measurable fun a : Fin M → ℂ => ∏ k : Fin M, ENNReal.ofReal (stepProb ρ cutoff n k (extC a)) := by
    refine Finset.measurable_fun_prod _ fun k _ => ENNReal.measurable_ofReal.comp ((hm _ _).div ?_)
    unfold stepTotal
    exact Finset.measurable_fun_sum _ fun j _ => hm _ _
  have hPd : (phase M M T + 1).PosDef := (physical_posDef _ 2 (by norm_num) hT).add Matrix.PosDef.one
  rw [stdNormal_equiv (quadEquiv M)]
  have h1 : ∀ y : Fin M ⊕ Fin M → ℝ, ∏ k : Fin M, ENNReal.ofReal (stepProb ρ cutoff n k (hetAt M mean C (seq fun k => y ((quadEquiv M).symm k)))) =
      ∏ k : Fin M, ENNReal.ofReal (stepProb ρ cutoff n k (extC (amps (phaseVec M mean + phase M M C *ᵥ y)))) := by
    intro y
    refine Finset.prod_congr rfl fun k _ => ?_
    rw [stepProb_congr ρ cutoff n k _ (extC (amps (phaseVec M mean + phase M M C *ᵥ y)))]
    intro l hl
    have h := hetAt_amps M mean C y ⟨l, hl⟩
    unfold extC
    rw [dif_pos hl]
    exact h
  rw [lintegral_congr h1, het_change (phase M M C) (phase M M T + 1) hPd hC (phaseVec M mean) (fun a => ∏ k : Fin M, ENNReal.ofReal (stepProb ρ cutoff n k (extC a))) hF]
  have h2 := pure_chain ψ hsum cutoff n hn
  rw [← hψ] at h2
  have h3 : ∀ a : Fin M → ℂ, outcomeDensity ρ 0 n (extC a) = husimiFn M mean T 2 a := by
    intro a
    rw [outcomeDensity_none ρ hρ n (extC a)]
    congr 1
    funext k
    simp [extC]
  have hpi : (0 : ℝ) < Real.pi ^ M := by positivity
  have h4 : ∀ a : Fin M → ℂ, ENNReal.ofReal (Real.exp (-(((2 : ℝ) • quads a - phaseVec M mean) ⬝ᵥ (phase M M T + 1)⁻¹ *ᵥ ((2 : ℝ) • quads a - phaseVec M mean)) / 2) *
      (2 ^ Fintype.card (Fin M) / (Real.pi ^ Fintype.card (Fin M) * Real.sqrt (phase M M T + 1).det))) =
      ENNReal.ofReal ((Real.pi ^ M)⁻¹) * ENNReal.ofReal (outcomeDensity ρ 0 n (extC a)) := by
    intro a
    rw [← ENNReal.ofReal_mul (by positivity), h3]
    congr 1
    have hq : cohQuad 2 a = (2 : ℝ) • quads a := by
      have h22 : Real.sqrt (2 * 2) = 2 := by rw [show (2 : ℝ) * 2 = 2 ^ 2 by norm_num]; exact Real.sqrt_sq (by norm_num)
      funext p
      rcases p with p | p <;> simp only [cohQuad, h22, quads, Sum.elim_inl, Sum.elim_inr, Pi.smul_apply, smul_eq_mul]
    have h5 : Real.sqrt ((1 / 2 : ℝ) • (phase M M T + 1)).det = Real.sqrt (phase M M T + 1).det / 2 ^ M := by
      rw [det_smul, Fintype.card_sum, Fintype.card_fin, Real.sqrt_mul (by positivity), show ((1 / 2 : ℝ) ^ (M + M)) = ((1 / 2) ^ M) ^ 2 by rw [← pow_mul]; congr 1; ring,
        Real.sqrt_sq (by positivity), one_div, inv_pow]
      ring
    unfold husimiFn
    dsimp only
    rw [show (2 : ℝ) / 2 = 1 by norm_num, one_smul, hq, h5, Fintype.card_fin]
    have h6 : Real.sqrt (phase M M T + 1).det ≠ 0 := (Real.sqrt_pos.mpr hPd.det_pos).ne'
    field_simp
  have h7 : ∀ a : Fin M → ℂ, ENNReal.ofReal (Real.exp (-(((2 : ℝ) • quads a - phaseVec M mean) ⬝ᵥ (phase M M T + 1)⁻¹ *ᵥ ((2 : ℝ) • quads a - phaseVec M mean)) / 2) *
      (2 ^ Fintype.card (Fin M) / (Real.pi ^ Fintype.card (Fin M) * Real.sqrt (phase M M T + 1).det))) * (∏ k : Fin M, ENNReal.ofReal (stepProb ρ cutoff n k (extC a))) =
      ENNReal.ofReal ((Real.pi ^ M)⁻¹) * (ENNReal.ofReal (outcomeDensity ρ 0 n (extC a)) * ∏ k : Fin M, ENNReal.ofReal (stepProb ρ cutoff n k (extC a))) := by
    intro a
    rw [h4, mul_assoc]
  rw [lintegral_congr h7, lintegral_const_mul' _ _ ENNReal.ofReal_ne_top]
  refine le_trans (le_of_eq ?_) (mul_le_mul_right h2 _)
  rw [← ENNReal.ofReal_mul (by positivity), ← mul_assoc, inv_mul_cancel₀ hpi.ne', one_mul]
  rw [hψ]
  beta_reduce
  rw [Complex.mul_conj, Complex.ofReal_re]

/-! #### The draws of the photon numbers -/

/-- the weights of the photon numbers of mode `k` -/
noncomputable def stepList {M : ℕ} (ρ : (Fin M → ℕ) → (Fin M → ℕ) → ℂ) (cutoff : ℕ) (n : ℕ → ℕ) (k : ℕ) (α : ℕ → ℂ) : List ℝ :=
  (List.range (cutoff + 1)).map fun j => outcomeDensity ρ (k + 1) (Function.update n k j) α

/-- the part of the weights below `i` -/
noncomputable def cumProb {M : ℕ} (ρ : (Fin M → ℕ) → (Fin M → ℕ) → ℂ) (cutoff : ℕ) (n : ℕ → ℕ) (k : ℕ) (α : ℕ → ℂ) (i : ℕ) : ℝ :=
  (∑ j ∈ Finset.range i, outcomeDensity ρ (k + 1) (Function.update n k j) α) / stepTotal ρ cutoff n k α

theorem map_range_sum (f : ℕ → ℝ) (m : ℕ) : ((List.range m).map f).sum = ∑ j ∈ Finset.range m, f j := by
  rw [← List.sum_toFinset _ List.nodup_range, List.toFinset_range]

section draws
variable {M : ℕ} (lib : Lib) (htol : 0 ≤ lib.tol) (ρ : (Fin M → ℕ) → (Fin M → ℕ) → ℂ) (α : ℕ → ℂ) (hnn : ∀ m n, 0 ≤ outcomeDensity ρ m n α) (cutoff : ℕ)

theorem stepList_sum (n : ℕ → ℕ) (k : ℕ) : (stepList ρ cutoff n k α).sum = stepTotal ρ cutoff n k α := map_range_sum _ _

theorem stepList_congr (n n' : ℕ → ℕ) (k : ℕ) (h : ∀ i < k, n i = n' i) : stepList ρ cutoff n k α = stepList ρ cutoff n' k α := by
  unfold stepList
  refine List.map_congr_left fun j _ => outcomeDensity_congr ρ _ _ _ _ _ (fun i hi => ?_) fun _ _ _ => rfl
  by_cases hk : i = k
  · subst hk; simp
  · rw [Function.update_of_ne hk, Function.update_of_ne hk, h i (by omega)]

theorem stepTotal_congr (n n' : ℕ → ℕ) (k : ℕ) (h : ∀ i < k, n i = n' i) : stepTotal ρ cutoff n k α = stepTotal ρ cutoff n' k α := by
  rw [← stepList_sum, ← stepList_sum, stepList_congr ρ α cutoff n n' k h]

include htol hnn in
theorem bornStep_iff (n n' : ℕ → ℕ) (mode k k' : ℕ) : bornStep lib ρ α cutoff n mode k = .ok (n', k') ↔
    stepTotal ρ cutoff n mode α ≠ 0 ∧ k' = k + 1 ∧
      n' = Function.update n mode (searchRight (cdf ((stepList ρ cutoff n mode α).map fun x => x / stepTotal ρ cutoff n mode α)) (lib.uniform k)) := by
  have hb : bornStep lib ρ α cutoff n mode = (chooseNormalised lib cutoff (stepList ρ cutoff n mode α) >>= fun j => pure (Function.update n mode j)) := rfl
  rw [hb]
  unfold chooseNormalised
  rw [stepList_sum]
  by_cases hz : stepTotal ρ cutoff n mode α = 0
  · rw [if_pos hz]
    constructor
    · intro h
      change Except.error PyErr.valueError = _ at h
      exact absurd h (by simp)
    · intro h; exact absurd hz h.1
  · rw [if_neg hz]
    have hpos : 0 < stepTotal ρ cutoff n mode α := lt_of_le_of_ne (Finset.sum_nonneg fun j _ => hnn _ _) (Ne.symm hz)
    have hsum : ((stepList ρ cutoff n mode α).map fun x => x / stepTotal ρ cutoff n mode α).sum = 1 := by
      have := List.sum_map_mul_left (stepList ρ cutoff n mode α) id (stepTotal ρ cutoff n mode α)⁻¹
      simp only [id] at this
      rw [List.map_id, stepList_sum] at this
      rw [← inv_mul_cancel₀ hz, ← this]
      congr 1
      exact List.map_congr_left fun x _ => div_eq_inv_mul _ _
    have hch : choice lib (cutoff + 1) ((stepList ρ cutoff n mode α).map fun x => x / stepTotal ρ cutoff n mode α) k =
        .ok (searchRight (cdf ((stepList ρ cutoff n mode α).map fun x => x / stepTotal ρ cutoff n mode α)) (lib.uniform k), k + 1) := by
      unfold choice
      rw [if_neg]
      rw [hsum, sub_self, abs_zero]
      push Not
      refine ⟨by omega, by simp [stepList], ?_, htol⟩
      intro x hx
      obtain ⟨y, hy, rfl⟩ := List.mem_map.mp hx
      obtain ⟨j, -, rfl⟩ := List.mem_map.mp hy
      exact div_nonneg (hnn _ _) hpos.le
    change (choice lib (cutoff + 1) ((stepList ρ cutoff n mode α).map fun x => x / stepTotal ρ cutoff n mode α) k).bind (fun x => .ok (Function.update n mode x.1, x.2)) = _ ↔ _
    rw [hch]
    change Except.ok (_, _) = Except.ok _ ↔ _
    simp only [Except.ok.injEq, Prod.mk.injEq]
    constructor
    · rintro ⟨rfl, rfl⟩; exact ⟨hz, rfl, rfl⟩
    · rintro ⟨-, rfl, rfl⟩; exact ⟨rfl, rfl⟩

include htol hnn in
theorem bornFold_iff (m k0 : ℕ) (n : ℕ → ℕ) (k1 : ℕ) : (List.range m).foldlM (bornStep lib ρ α cutoff) (fun _ => 0) k0 = .ok (n, k1) ↔
    k1 = k0 + m ∧ (∀ i, m ≤ i → n i = 0) ∧ ∀ k < m, stepTotal ρ cutoff n k α ≠ 0 ∧
      searchRight (cdf ((stepList ρ cutoff n k α).map fun x => x / stepTotal ρ cutoff n k α)) (lib.uniform (k0 + k)) = n k := by
  induction m generalizing n k1 with
  | zero =>
    change Except.ok ((fun _ => 0), k0) = Except.ok (n, k1) ↔ _
    simp only [Except.ok.injEq, Prod.mk.injEq, Nat.not_lt_zero, false_imp_iff, imp_true_iff, and_true, Nat.zero_le, true_imp_iff, Nat.add_zero]
    constructor
    · rintro ⟨rfl, rfl⟩; exact ⟨rfl, fun _ => rfl⟩
    · rintro ⟨rfl, h⟩; exact ⟨(funext h).symm, rfl⟩
  | succ m ih =>
    have hrun : (List.range (m + 1)).foldlM (bornStep lib ρ α cutoff) (fun _ => 0) k0 = .ok (n, k1) ↔
        ∃ n' k', (List.range m).foldlM (bornStep lib ρ α cutoff) (fun _ => 0) k0 = .ok (n', k') ∧ bornStep lib ρ α cutoff n' m k' = .ok (n, k1) := by
      rw [List.range_succ, List.foldlM_append]
      simp only [List.foldlM_cons, List.foldlM_nil, bind_pure]
      change ((List.range m).foldlM (bornStep lib ρ α cutoff) (fun _ => 0) k0).bind (fun x => bornStep lib ρ α cutoff x.1 m x.2) = _ ↔ _
      generalize (List.range m).foldlM (bornStep lib ρ α cutoff) (fun _ => 0) k0 = e
      rcases e with e | ⟨a, b⟩
      · simp [Except.bind]
      · simp [Except.bind]
    rw [hrun]
    constructor
    · rintro ⟨n', k', h1, h2⟩
      obtain ⟨rfl, h3, h4⟩ := (ih n' k').mp h1
      obtain ⟨h5, rfl, h6⟩ := (bornStep_iff lib htol ρ α hnn cutoff n' n m _ k1).mp h2
      have hlt : ∀ i < m, n i = n' i := fun i hi => by rw [h6, Function.update_of_ne (by omega)]
      refine ⟨by omega, fun i hi => by rw [h6, Function.update_of_ne (by omega), h3 i (by omega)], fun k hk => ?_⟩
      have hc : ∀ i < k, n i = n' i := fun i hi => hlt i (by omega)
      rw [stepTotal_congr ρ α cutoff n n' k hc, stepList_congr ρ α cutoff n n' k hc]
      by_cases hkm : k = m
      · subst hkm
        refine ⟨h5, ?_⟩
        conv_rhs => rw [h6, Function.update_self]
      · rw [hlt k (by omega)]
        exact h4 k (by omega)
    · rintro ⟨rfl, h3, h4⟩
      have hlt : ∀ i < m, Function.update n m 0 i = n i := fun i hi => by rw [Function.update_of_ne (by omega)]
      refine ⟨Function.update n m 0, k0 + m, (ih _ _).mpr ⟨rfl, fun i hi => ?_, fun k hk => ?_⟩, (bornStep_iff lib htol ρ α hnn cutoff _ n m _ _).mpr ⟨?_, rfl, ?_⟩⟩
      · by_cases him : i = m
        · subst him; simp
        · rw [Function.update_of_ne him, h3 i (by omega)]
      · rw [stepTotal_congr ρ α cutoff _ n k fun i hi => hlt i (by omega), stepList_congr ρ α cutoff _ n k fun i hi => hlt i (by omega), hlt k hk]
        exact h4 k (by omega)
      · rw [stepTotal_congr ρ α cutoff _ n m hlt]
        exact (h4 m (by omega)).1
      · rw [stepTotal_congr ρ α cutoff _ n m hlt, stepList_congr ρ α cutoff _ n m hlt, (h4 m (by omega)).2]
        simp

include hnn in
theorem draw_iff (n : ℕ → ℕ) (k : ℕ) (hz : stepTotal ρ cutoff n k α ≠ 0) (u : ℝ) (hu : 0 ≤ u) (hu1 : u < 1) (i : ℕ) :
    searchRight (cdf ((stepList ρ cutoff n k α).map fun x => x / stepTotal ρ cutoff n k α)) u = i ↔
      i ≤ cutoff ∧ cumProb ρ cutoff n k α i ≤ u ∧ u < cumProb ρ cutoff n k α (i + 1) := by
  have hpos : 0 < stepTotal ρ cutoff n k α := lt_of_le_of_ne (Finset.sum_nonneg fun j _ => hnn _ _) (Ne.symm hz)
  have hlen : ((stepList ρ cutoff n k α).map fun x => x / stepTotal ρ cutoff n k α).length = cutoff + 1 := by simp [stepList]
  have htake : ∀ i ≤ cutoff + 1, (((stepList ρ cutoff n k α).map fun x => x / stepTotal ρ cutoff n k α).take i).sum = cumProb ρ cutoff n k α i := by
    intro i hi
    unfold stepList cumProb
    rw [List.map_map, ← List.map_take, List.take_range, min_eq_left hi, map_range_sum, Finset.sum_div]
    rfl
  have hsum : ((stepList ρ cutoff n k α).map fun x => x / stepTotal ρ cutoff n k α).sum = 1 := by
    have := htake (cutoff + 1) le_rfl
    rw [List.take_of_length_le (by rw [hlen])] at this
    rw [this]
    exact div_self hz
  have hcum : ∀ i ≤ cutoff + 1, cum ((stepList ρ cutoff n k α).map fun x => x / stepTotal ρ cutoff n k α) i = cumProb ρ cutoff n k α i := by
    intro i hi
    unfold cum
    rw [hsum, div_one, htake i hi]
  rw [searchRight_iff _ ?_ (by rw [hsum]; norm_num) u hu hu1, hlen]
  · constructor
    · rintro ⟨h1, h2, h3⟩
      rw [hcum i (by omega)] at h2
      rw [hcum (i + 1) (by omega)] at h3
      exact ⟨by omega, h2, h3⟩
    · rintro ⟨h1, h2, h3⟩
      rw [← hcum i (by omega)] at h2
      rw [← hcum (i + 1) (by omega)] at h3
      exact ⟨by omega, h2, h3⟩
  · intro x hx
    obtain ⟨y, hy, rfl⟩ := List.mem_map.mp hx
    obtain ⟨j, -, rfl⟩ := List.mem_map.mp hy
    exact div_nonneg (hnn _ _) hpos.le

/-- the numbers `u` for which mode `k` gets `n k` photons -/
def drawSet {M : ℕ} (ρ : (Fin M → ℕ) → (Fin M → ℕ) → ℂ) (α : ℕ → ℂ) (cutoff : ℕ) (n : ℕ → ℕ) (k : ℕ) : Set ℝ :=
  {u | stepTotal ρ cutoff n k α ≠ 0 ∧ cumProb ρ cutoff n k α (n k) ≤ u ∧ u < cumProb ρ cutoff n k α (n k + 1)}

include hnn in
theorem drawSet_measure (n : ℕ → ℕ) (k : ℕ) (hn : n k ≤ cutoff) :
    (volume.restrict (Set.Ico (0 : ℝ) 1)) (drawSet ρ α cutoff n k) = ENNReal.ofReal (stepProb ρ cutoff n k α) := by
  unfold drawSet
  by_cases hz : stepTotal ρ cutoff n k α = 0
  · have : {u | stepTotal ρ cutoff n k α ≠ 0 ∧ cumProb ρ cutoff n k α (n k) ≤ u ∧ u < cumProb ρ cutoff n k α (n k + 1)} = ∅ := by
      ext u; simp [hz]
    rw [this, measure_empty]
    unfold stepProb
    rw [hz, div_zero, ENNReal.ofReal_zero]
  · have hpos : 0 < stepTotal ρ cutoff n k α := lt_of_le_of_ne (Finset.sum_nonneg fun j _ => hnn _ _) (Ne.symm hz)
    have : {u | stepTotal ρ cutoff n k α ≠ 0 ∧ cumProb ρ cutoff n k α (n k) ≤ u ∧ u < cumProb ρ cutoff n k α (n k + 1)} =
        Set.Ico (cumProb ρ cutoff n k α (n k)) (cumProb ρ cutoff n k α (n k + 1)) := by
      ext u; simp [hz]
    have h0 : 0 ≤ cumProb ρ cutoff n k α (n k) := div_nonneg (Finset.sum_nonneg fun j _ => hnn _ _) hpos.le
    have h1 : cumProb ρ cutoff n k α (n k + 1) ≤ 1 := by
      unfold cumProb
      rw [div_le_one hpos]
      exact Finset.sum_le_sum_of_subset_of_nonneg (Finset.range_mono (by omega)) fun j _ _ => hnn _ _
    rw [this, Measure.restrict_apply measurableSet_Ico, Set.Ico_inter_Ico, max_eq_left h0, min_eq_left h1, Real.volume_Ico]
    congr 1
    unfold cumProb stepProb
    rw [Finset.sum_range_succ, ← sub_div, add_sub_cancel_left, Function.update_eq_self]

end draws

/-! #### The random numbers -/

/-- The library with given random numbers: the two vectors `x` and `y` that `np.random.normal` returns and the numbers `u 0`, `u 1`, … behind the calls of
`np.random.choice`, in the order in which `generate_hafnian_sample` asks for them. -/
noncomputable def withDraws (lib : Lib) {M : ℕ} (x y : Fin (2 * M) → ℝ) (u : Fin M → ℝ) : Lib :=
  { lib with normal := fun k => if k = 0 then seq x else seq y, uniform := fun k => seq u (k - 2) }

instance : IsProbabilityMeasure (volume.restrict (Set.Ico (0 : ℝ) 1)) := ⟨by rw [Measure.restrict_apply_univ, Real.volume_Ico]; norm_num⟩

/-- The law of the random numbers: the entries of `x` and `y` are standard normal, those of `u` uniform on `[0, 1)`, all independent. -/
noncomputable def drawLaw (M : ℕ) : Measure ((Fin (2 * M) → ℝ) × (Fin (2 * M) → ℝ) × (Fin M → ℝ)) :=
  (stdNormal (Fin (2 * M))).prod ((stdNormal (Fin (2 * M))).prod (Measure.pi fun _ => volume.restrict (Set.Ico 0 1)))

instance (M : ℕ) : IsProbabilityMeasure (drawLaw M) := by unfold drawLaw; infer_instance

/-- the uniform numbers are in `[0, 1)` -/
def unitDraws (M : ℕ) : Set ((Fin (2 * M) → ℝ) × (Fin (2 * M) → ℝ) × (Fin M → ℝ)) := {ω | ∀ k, ω.2.2 k ∈ Set.Ico (0 : ℝ) 1}

theorem unitDraws_meas (M : ℕ) : MeasurableSet (unitDraws M) := by
  have : unitDraws M = ⋂ k, {ω | ω.2.2 k ∈ Set.Ico (0 : ℝ) 1} := by ext ω; simp [unitDraws]
  rw [this]
  refine MeasurableSet.iInter fun k => ?_
  have : Measurable fun ω : (Fin (2 * M) → ℝ) × (Fin (2 * M) → ℝ) × (Fin M → ℝ) => ω.2.2 k := (measurable_pi_apply k).comp (measurable_snd.comp measurable_snd)
  exact this measurableSet_Ico

theorem unitDraws_compl (M : ℕ) : drawLaw M (unitDraws M)ᶜ = 0 := by
  have h1 : (Measure.pi fun _ : Fin M => volume.restrict (Set.Ico (0 : ℝ) 1)) {u | ∀ k, u k ∈ Set.Ico (0 : ℝ) 1} = 1 := by
    have : {u : Fin M → ℝ | ∀ k, u k ∈ Set.Ico (0 : ℝ) 1} = Set.univ.pi fun _ => Set.Ico (0 : ℝ) 1 := by ext u; simp
    rw [this, Measure.pi_pi]
    simp [Measure.restrict_apply measurableSet_Ico]
  have h2 : unitDraws M = Set.univ ×ˢ (Set.univ ×ˢ {u : Fin M → ℝ | ∀ k, u k ∈ Set.Ico (0 : ℝ) 1}) := by ext ω; simp [unitDraws]
  have h3 : drawLaw M (unitDraws M) = 1 := by
    unfold drawLaw
    rw [h2, Measure.prod_prod, Measure.prod_prod, h1, measure_univ]
    norm_num
  rw [prob_compl_eq_zero_iff (unitDraws_meas M)]
  exact h3

section law
variable {M : ℕ} (mu : ℕ → ℝ) {T W C : RArr} (ρ : (ℕ → ℝ) → (Fin M → ℕ) → (Fin M → ℕ) → ℂ) (cutoff : ℕ)

/-- the random numbers for which the modes get the photon numbers `n` -/
def drawEvent (mu : ℕ → ℝ) (W C : RArr) (ρ : (ℕ → ℝ) → (Fin M → ℕ) → (Fin M → ℕ) → ℂ) (cutoff : ℕ) (n : ℕ → ℕ) : Set ((Fin (2 * M) → ℝ) × (Fin (2 * M) → ℝ) × (Fin M → ℝ)) :=
  {ω | ∀ k : Fin M, ω.2.2 k ∈ drawSet (ρ (meanAt M mu W (seq ω.1))) (hetAt M (meanAt M mu W (seq ω.1)) C (seq ω.2.1)) cutoff n k}

theorem seq_measurable {m : ℕ} (k : ℕ) : Measurable fun x : Fin m → ℝ => seq x k := by
  unfold seq
  by_cases h : k < m
  · simp only [h, dif_pos]; fun_prop
  · simp only [h, dif_neg, not_false_iff]; exact measurable_const

theorem seq_continuous {m : ℕ} (k : ℕ) : Continuous fun x : Fin m → ℝ => seq x k := by
  unfold seq
  by_cases h : k < m
  · simp only [h, dif_pos]; fun_prop
  · simp only [h, dif_neg, not_false_iff]; exact continuous_const

theorem meanAt_continuous (W : RArr) (i : ℕ) : Continuous fun x : Fin (2 * M) → ℝ => meanAt M mu W (seq x) i := by
  unfold meanAt
  exact continuous_const.add (continuous_finsetSum _ fun j _ => continuous_const.mul (seq_continuous j))

theorem hetAt_measurable (W C : RArr) (k : ℕ) :
    Measurable fun ω : (Fin (2 * M) → ℝ) × (Fin (2 * M) → ℝ) × (Fin M → ℝ) => hetAt M (meanAt M mu W (seq ω.1)) C (seq ω.2.1) k := by
  have h : ∀ i, Measurable fun ω : (Fin (2 * M) → ℝ) × (Fin (2 * M) → ℝ) × (Fin M → ℝ) => meanAt M mu W (seq ω.1) i + ∑ j ∈ Finset.range (2 * M), C i j * seq ω.2.1 j := by
    intro i
    refine Measurable.add ((meanAt_continuous mu W i).measurable.comp measurable_fst) (Finset.measurable_fun_sum _ fun j _ => ?_)
    exact measurable_const.mul ((seq_measurable j).comp (measurable_fst.comp measurable_snd))
  have e : ∀ ω : (Fin (2 * M) → ℝ) × (Fin (2 * M) → ℝ) × (Fin M → ℝ), hetAt M (meanAt M mu W (seq ω.1)) C (seq ω.2.1) k =
      (((meanAt M mu W (seq ω.1) k + ∑ j ∈ Finset.range (2 * M), C k j * seq ω.2.1 j : ℝ) : ℂ) +
        ((meanAt M mu W (seq ω.1) (M + k) + ∑ j ∈ Finset.range (2 * M), C (M + k) j * seq ω.2.1 j : ℝ) : ℂ) * Complex.I) / 2 := by
    intro ω
    unfold hetAt Spec.amp
    congr 1
    apply Complex.ext <;> simp
  simp only [e]
  exact (((Complex.measurable_ofReal.comp (h k)).add ((Complex.measurable_ofReal.comp (h (M + k))).mul_const _)).div_const _)

variable (hT : Physical (phase M M T) 2) (hdet : (phase M M T).det = 1) (hρ : ∀ mu, IsFockMatrix M mu T 2 (ρ mu))

include hT hdet hρ

theorem density_nonneg (mean : ℕ → ℝ) (α : ℕ → ℂ) (m : ℕ) (n : ℕ → ℕ) : 0 ≤ outcomeDensity (ρ mean) m n α := by
  obtain ⟨ψ, hψ, hsum⟩ := pure_wave hT hdet mean (ρ mean) (hρ mean)
  rw [hψ]
  exact pure_nonneg ψ hsum m n α

theorem density_measurable (W C : RArr) (m : ℕ) (n : ℕ → ℕ) :
    Measurable fun ω : (Fin (2 * M) → ℝ) × (Fin (2 * M) → ℝ) × (Fin M → ℝ) => outcomeDensity (ρ (meanAt M mu W (seq ω.1))) m n (hetAt M (meanAt M mu W (seq ω.1)) C (seq ω.2.1)) := by
  refine outcomeDensity_measurable (fun ω : (Fin (2 * M) → ℝ) × (Fin (2 * M) → ℝ) × (Fin M → ℝ) => ρ (meanAt M mu W (seq ω.1))) m n
    (fun ω => hetAt M (meanAt M mu W (seq ω.1)) C (seq ω.2.1)) (fun i j => ?_) (fun k _ => hetAt_measurable mu W C k) fun ω => ?_
  · have h := fockMatrix_continuous (by norm_num : (0 : ℝ) < 2) hT (fun x : Fin (2 * M) → ℝ => meanAt M mu W (seq x)) (fun p => meanAt_continuous mu W _)
      (fun x => ρ (meanAt M mu W (seq x))) (fun x => hρ _) i j
    exact h.measurable.comp measurable_fst
  · obtain ⟨ψ, hψ, hsum⟩ := pure_wave hT hdet (meanAt M mu W (seq ω.1)) _ (hρ _)
    rw [hψ]
    exact (pure_hasSum ψ m n _ _ (pure_summable ψ hsum m n _).hasSum).summable

theorem drawEvent_meas (W C : RArr) (n : ℕ → ℕ) : MeasurableSet (drawEvent mu W C ρ cutoff n) := by
  have h : drawEvent mu W C ρ cutoff n = ⋂ k : Fin M, {ω | ω.2.2 k ∈ drawSet (ρ (meanAt M mu W (seq ω.1))) (hetAt M (meanAt M mu W (seq ω.1)) C (seq ω.2.1)) cutoff n k} := by
    ext ω; simp [drawEvent]
  rw [h]
  refine MeasurableSet.iInter fun k => ?_
  have hu : Measurable fun ω : (Fin (2 * M) → ℝ) × (Fin (2 * M) → ℝ) × (Fin M → ℝ) => ω.2.2 k := (measurable_pi_apply k).comp (measurable_snd.comp measurable_snd)
  have hS : Measurable fun ω : (Fin (2 * M) → ℝ) × (Fin (2 * M) → ℝ) × (Fin M → ℝ) =>
      stepTotal (ρ (meanAt M mu W (seq ω.1))) cutoff n k (hetAt M (meanAt M mu W (seq ω.1)) C (seq ω.2.1)) :=
    Finset.measurable_fun_sum _ fun j _ => density_measurable mu ρ hT hdet hρ W C _ _
  have hc : ∀ i, Measurable fun ω : (Fin (2 * M) → ℝ) × (Fin (2 * M) → ℝ) × (Fin M → ℝ) =>
      cumProb (ρ (meanAt M mu W (seq ω.1))) cutoff n k (hetAt M (meanAt M mu W (seq ω.1)) C (seq ω.2.1)) i := fun i =>
    Measurable.div (Finset.measurable_fun_sum _ fun j _ => density_measurable mu ρ hT hdet hρ W C _ _) hS
  have h1 : MeasurableSet {ω : (Fin (2 * M) → ℝ) × (Fin (2 * M) → ℝ) × (Fin M → ℝ) |
      stepTotal (ρ (meanAt M mu W (seq ω.1))) cutoff n k (hetAt M (meanAt M mu W (seq ω.1)) C (seq ω.2.1)) ≠ 0} := hS (measurableSet_singleton (0 : ℝ)).compl
  exact h1.inter ((measurableSet_le (hc _) hu).inter (measurableSet_lt hu (hc _)))

theorem drawEvent_measure (W C : RArr) (n : ℕ → ℕ) (hn : ∀ k, n k ≤ cutoff) : drawLaw M (drawEvent mu W C ρ cutoff n) =
    ∫⁻ x, ∫⁻ y, ∏ k : Fin M, ENNReal.ofReal (stepProb (ρ (meanAt M mu W (seq x))) cutoff n k (hetAt M (meanAt M mu W (seq x)) C (seq y))) ∂stdNormal (Fin (2 * M)) ∂stdNormal (Fin (2 * M)) := by
  have hm := drawEvent_meas mu ρ cutoff hT hdet hρ W C n
  unfold drawLaw
  rw [Measure.prod_apply hm]
  refine lintegral_congr fun x => ?_
  rw [Measure.prod_apply (measurable_prodMk_left hm)]
  refine lintegral_congr fun y => ?_
  have e : Prod.mk y ⁻¹' (Prod.mk x ⁻¹' drawEvent mu W C ρ cutoff n) =
      Set.univ.pi fun k : Fin M => drawSet (ρ (meanAt M mu W (seq x))) (hetAt M (meanAt M mu W (seq x)) C (seq y)) cutoff n k := by
    ext u
    simp [drawEvent]
  rw [e, Measure.pi_pi]
  exact Finset.prod_congr rfl fun k _ => drawSet_measure _ _ (fun m n => density_nonneg ρ hT hdet hρ _ _ m n) cutoff n k (hn k)

/-- Each pattern within the cutoff has at least its Born probability. -/
theorem drawEvent_lower {cov : RArr} (hW : phase M M W * (phase M M W)ᵀ = phase M M cov - phase M M T) (hC : phase M M C * (phase M M C)ᵀ = phase M M T + 1)
    (ρ0 : (Fin M → ℕ) → (Fin M → ℕ) → ℂ) (hρ0 : IsFockMatrix M mu cov 2 ρ0) (n : ℕ → ℕ) (hn : ∀ k, n k ≤ cutoff) :
    ENNReal.ofReal (ρ0 (fun k => n k) fun k => n k).re ≤ drawLaw M (drawEvent mu W C ρ cutoff n) := by
  rw [drawEvent_measure mu ρ cutoff hT hdet hρ W C n hn]
  refine le_trans ?_ (lintegral_mono fun x => pure_sampler hT hdet hC (meanAt M mu W (seq x)) (ρ (meanAt M mu W (seq x))) (hρ _) cutoff n hn)
  have hWW : (Matrix.of fun (p : Fin M ⊕ Fin M) (k : Fin (2 * M)) => W (quad M p) k) * (Matrix.of fun (p : Fin M ⊕ Fin M) (k : Fin (2 * M)) => W (quad M p) k)ᵀ =
      phase M M W * (phase M M W)ᵀ := by
    ext p q
    simp only [Matrix.mul_apply, transpose_apply, of_apply, phase]
    rw [sum_quad M fun j => W (quad M p) j * W (quad M q) j, Finset.sum_range]
  obtain ⟨h1, h2⟩ := gaussian_mixture (by norm_num : (0 : ℝ) < 2) mu cov T hT (Matrix.of fun (p : Fin M ⊕ Fin M) (k : Fin (2 * M)) => W (quad M p) k)
    (by rw [hWW, hW]; abel) (fun x => meanAt M mu W (seq x)) (fun x => by
      funext p
      simp only [phaseVec, meanAt, Pi.add_apply, mulVec, dotProduct, of_apply]
      rw [Finset.sum_range]
      congr 1
      exact Finset.sum_congr rfl fun k _ => by simp [seq]) (fun x => ρ (meanAt M mu W (seq x))) (fun x => hρ _) ρ0 hρ0 (fun k => n k) fun k => n k
  rw [← h2]
  have h3 : (∫ x, ρ (meanAt M mu W (seq x)) (fun k => n k) (fun k => n k) ∂stdNormal (Fin (2 * M))).re =
      ∫ x, (ρ (meanAt M mu W (seq x)) (fun k => n k) fun k => n k).re ∂stdNormal (Fin (2 * M)) := (integral_re h1).symm
  have h4 : Integrable (fun x => (ρ (meanAt M mu W (seq x)) (fun k => n k) fun k => n k).re) (stdNormal (Fin (2 * M))) := h1.re
  rw [h3, ofReal_integral_eq_lintegral_ofReal h4]
  exact Filter.Eventually.of_forall fun x => ((fock_isPsd (by norm_num) hT (hρ _)).diag _).1

end law

/-! #### The program -/

section run
variable {M : ℕ} (lib : Lib) (htol : 0 ≤ lib.tol) (mu : ℕ → ℝ) {T W C : RArr} (ρ : (ℕ → ℝ) → (Fin M → ℕ) → (Fin M → ℕ) → ℂ) (cutoff : ℕ)
variable (hT : Physical (phase M M T) 2) (hdet : (phase M M T).det = 1) (hρ : ∀ mu, IsFockMatrix M mu T 2 (ρ mu))

include htol hT hdet hρ

theorem fold_draws (ω : (Fin (2 * M) → ℝ) × (Fin (2 * M) → ℝ) × (Fin M → ℝ)) (hω : ω ∈ unitDraws M) (n : ℕ → ℕ) (k : ℕ) :
    (List.range M).foldlM (bornStep (withDraws lib ω.1 ω.2.1 ω.2.2) (ρ (meanAt M mu W (seq ω.1))) (hetAt M (meanAt M mu W (seq ω.1)) C (seq ω.2.1)) cutoff) (fun _ => 0) 2 = .ok (n, k) ↔
      k = 2 + M ∧ (∀ i, M ≤ i → n i = 0) ∧ (∀ k < M, n k ≤ cutoff) ∧ ω ∈ drawEvent mu W C ρ cutoff n := by
  have hnn : ∀ m n, 0 ≤ outcomeDensity (ρ (meanAt M mu W (seq ω.1))) m n (hetAt M (meanAt M mu W (seq ω.1)) C (seq ω.2.1)) := fun m n => density_nonneg ρ hT hdet hρ _ _ m n
  rw [bornFold_iff (withDraws lib ω.1 ω.2.1 ω.2.2) htol _ _ hnn cutoff M 2 n k]
  refine and_congr_right fun _ => and_congr_right fun _ => ?_
  have hu : ∀ k (hk : k < M), (withDraws lib ω.1 ω.2.1 ω.2.2).uniform (2 + k) = ω.2.2 ⟨k, hk⟩ := by
    intro k hk
    simp [withDraws, seq, hk]
  constructor
  · intro h
    have h' : ∀ k (hk : k < M), n k ≤ cutoff ∧ ω.2.2 ⟨k, hk⟩ ∈ drawSet (ρ (meanAt M mu W (seq ω.1))) (hetAt M (meanAt M mu W (seq ω.1)) C (seq ω.2.1)) cutoff n k := by
      intro k hk
      obtain ⟨h1, h2⟩ := h k hk
      rw [hu k hk, draw_iff _ _ hnn cutoff n k h1 _ (hω ⟨k, hk⟩).1 (hω ⟨k, hk⟩).2] at h2
      exact ⟨h2.1, h1, h2.2⟩
    exact ⟨fun k hk => (h' k hk).1, fun k => (h' k k.2).2⟩
  · rintro ⟨h1, h2⟩ k hk
    obtain ⟨h3, h4⟩ := h2 ⟨k, hk⟩
    refine ⟨h3, ?_⟩
    rw [hu k hk, draw_iff _ _ hnn cutoff n k h3 _ (hω ⟨k, hk⟩).1 (hω ⟨k, hk⟩).2]
    exact ⟨h1 k hk, h4⟩

theorem sampler_draws (ω : (Fin (2 * M) → ℝ) × (Fin (2 * M) → ℝ) × (Fin M → ℝ)) (hω : ω ∈ unitDraws M) (inv : List ℕ) (maxPhotons : ℕ) (l : List ℕ) :
    (∃ k, bornSampler (withDraws lib ω.1 ω.2.1 ω.2.2) mu W C ρ inv cutoff maxPhotons 0 = .ok (some l, k)) ↔
      ∃ n : ℕ → ℕ, (∀ i, M ≤ i → n i = 0) ∧ (∀ k < M, n k ≤ cutoff) ∧ ω ∈ drawEvent mu W C ρ cutoff n ∧ inv.map n = l ∧ l.getLastD 0 ≠ cutoff ∧ l.sum ≤ maxPhotons := by
  have hrun : bornSampler (withDraws lib ω.1 ω.2.1 ω.2.2) mu W C ρ inv cutoff maxPhotons 0 =
      ((List.range M).foldlM (bornStep (withDraws lib ω.1 ω.2.1 ω.2.2) (ρ (meanAt M mu W (seq ω.1))) (hetAt M (meanAt M mu W (seq ω.1)) C (seq ω.2.1)) cutoff) (fun _ => 0) 2).bind
        (fun x => (if (inv.map x.1).getLastD 0 = cutoff then pure none else if maxPhotons < (inv.map x.1).sum then pure none else pure (some (inv.map x.1)) : Rand (Option (List ℕ))) x.2) := rfl
  have hf := fold_draws lib htol mu ρ cutoff hT hdet hρ (W := W) (C := C) ω hω
  rw [hrun]
  generalize (List.range M).foldlM (bornStep (withDraws lib ω.1 ω.2.1 ω.2.2) (ρ (meanAt M mu W (seq ω.1))) (hetAt M (meanAt M mu W (seq ω.1)) C (seq ω.2.1)) cutoff) (fun _ => 0) 2 = e at hf
  constructor
  · rintro ⟨k, hk⟩
    rcases e with e | ⟨n, k'⟩
    · exact absurd hk (by simp [Except.bind])
    · obtain ⟨-, h2, h3, h4⟩ := (hf n k').mp rfl
      change (if (inv.map n).getLastD 0 = cutoff then pure none else if maxPhotons < (inv.map n).sum then pure none else pure (some (inv.map n)) : Rand (Option (List ℕ))) k' = _ at hk
      by_cases c1 : (inv.map n).getLastD 0 = cutoff
      · rw [if_pos c1] at hk
        change Except.ok (none, k') = Except.ok (some l, k) at hk
        simp at hk
      · rw [if_neg c1] at hk
        by_cases c2 : maxPhotons < (inv.map n).sum
        · rw [if_pos c2] at hk
          change Except.ok (none, k') = Except.ok (some l, k) at hk
          simp at hk
        · rw [if_neg c2] at hk
          change Except.ok (some (inv.map n), k') = Except.ok (some l, k) at hk
          simp only [Except.ok.injEq, Prod.mk.injEq, Option.some.injEq] at hk
          obtain ⟨rfl, -⟩ := hk
          exact ⟨n, h2, h3, h4, rfl, c1, by omega⟩
  · rintro ⟨n, h2, h3, h4, rfl, c1, c2⟩
    refine ⟨2 + M, ?_⟩
    rw [(hf n (2 + M)).mpr ⟨rfl, h2, h3, h4⟩]
    change (if (inv.map n).getLastD 0 = cutoff then pure none else if maxPhotons < (inv.map n).sum then pure none else pure (some (inv.map n)) : Rand (Option (List ℕ))) (2 + M) = _
    rw [if_neg c1, if_neg (by omega)]
    rfl

theorem sampler_rejects (ω : (Fin (2 * M) → ℝ) × (Fin (2 * M) → ℝ) × (Fin M → ℝ)) (hω : ω ∈ unitDraws M) (inv : List ℕ) (maxPhotons : ℕ) :
    (∃ k, bornSampler (withDraws lib ω.1 ω.2.1 ω.2.2) mu W C ρ inv cutoff maxPhotons 0 = .ok (none, k)) ↔
      ∃ n : ℕ → ℕ, (∀ i, M ≤ i → n i = 0) ∧ (∀ k < M, n k ≤ cutoff) ∧ ω ∈ drawEvent mu W C ρ cutoff n ∧ ((inv.map n).getLastD 0 = cutoff ∨ maxPhotons < (inv.map n).sum) := by
  have hrun : bornSampler (withDraws lib ω.1 ω.2.1 ω.2.2) mu W C ρ inv cutoff maxPhotons 0 =
      ((List.range M).foldlM (bornStep (withDraws lib ω.1 ω.2.1 ω.2.2) (ρ (meanAt M mu W (seq ω.1))) (hetAt M (meanAt M mu W (seq ω.1)) C (seq ω.2.1)) cutoff) (fun _ => 0) 2).bind
        (fun x => (if (inv.map x.1).getLastD 0 = cutoff then pure none else if maxPhotons < (inv.map x.1).sum then pure none else pure (some (inv.map x.1)) : Rand (Option (List ℕ))) x.2) := rfl
  have hf := fold_draws lib htol mu ρ cutoff hT hdet hρ (W := W) (C := C) ω hω
  rw [hrun]
  generalize (List.range M).foldlM (bornStep (withDraws lib ω.1 ω.2.1 ω.2.2) (ρ (meanAt M mu W (seq ω.1))) (hetAt M (meanAt M mu W (seq ω.1)) C (seq ω.2.1)) cutoff) (fun _ => 0) 2 = e at hf
  constructor
  · rintro ⟨k, hk⟩
    rcases e with e | ⟨n, k'⟩
    · exact absurd hk (by simp [Except.bind])
    · obtain ⟨-, h2, h3, h4⟩ := (hf n k').mp rfl
      refine ⟨n, h2, h3, h4, ?_⟩
      by_contra hcon
      push Not at hcon
      change (if (inv.map n).getLastD 0 = cutoff then pure none else if maxPhotons < (inv.map n).sum then pure none else pure (some (inv.map n)) : Rand (Option (List ℕ))) k' = _ at hk
      rw [if_neg hcon.1, if_neg (by omega)] at hk
      change Except.ok (some (inv.map n), k') = Except.ok (none, k) at hk
      simp at hk
  · rintro ⟨n, h2, h3, h4, c⟩
    refine ⟨2 + M, ?_⟩
    rw [(hf n (2 + M)).mpr ⟨rfl, h2, h3, h4⟩]
    change (if (inv.map n).getLastD 0 = cutoff then pure none else if maxPhotons < (inv.map n).sum then pure none else pure (some (inv.map n)) : Rand (Option (List ℕ))) (2 + M) = _
    by_cases c1 : (inv.map n).getLastD 0 = cutoff
    · rw [if_pos c1]
      rfl
    · rw [if_neg c1, if_pos (c.resolve_left c1)]
      rfl

/-- different photon numbers come from different random numbers -/
theorem drawEvent_unique (ω : (Fin (2 * M) → ℝ) × (Fin (2 * M) → ℝ) × (Fin M → ℝ)) (hω : ω ∈ unitDraws M) (n n' : ℕ → ℕ) (h1 : ∀ i, M ≤ i → n i = 0) (h1' : ∀ i, M ≤ i → n' i = 0)
    (h2 : ∀ k < M, n k ≤ cutoff) (h2' : ∀ k < M, n' k ≤ cutoff) (h3 : ω ∈ drawEvent mu W C ρ cutoff n) (h3' : ω ∈ drawEvent mu W C ρ cutoff n') : n = n' := by
  have a := (fold_draws lib htol mu ρ cutoff hT hdet hρ (W := W) (C := C) ω hω n _).mpr ⟨rfl, h1, h2, h3⟩
  have b := (fold_draws lib htol mu ρ cutoff hT hdet hρ (W := W) (C := C) ω hω n' _).mpr ⟨rfl, h1', h2', h3'⟩
  rw [a] at b
  simp only [Except.ok.injEq, Prod.mk.injEq, and_true] at b
  exact b

end run

/-- the Fock matrix of the state with its modes in another order -/
theorem fock_reorder (s r : GState ℝ) (M : ℕ) (order : List ℕ) (hlen : order.length = M) (hr : IsReduction M s order r) (e : Fin M ≃ Fin M) (he : ∀ a : Fin M, (e a : ℕ) = order.getD a 0)
    (ρ : (Fin M → ℕ) → (Fin M → ℕ) → ℂ) (hρ : IsFockMatrix M s.mu s.cov 2 ρ) : IsFockMatrix M r.mu r.cov 2 fun i j => ρ (i ∘ e.symm) (j ∘ e.symm) := by
  subst hlen
  have h := (isFock_iff.mp hρ).relabel e
  rw [isFock_iff]
  have h1 : FPar.resV (phaseVec order.length s.mu) e = phaseVec order.length r.mu := by
    funext p
    rcases p with p | p
    · simp only [FPar.resV, phaseVec, quad, Sum.map_inl, Sum.elim_inl, he]
      exact (hr.mean p p.2).1.symm
    · simp only [FPar.resV, phaseVec, quad, Sum.map_inr, Sum.elim_inr, he]
      exact (hr.mean p p.2).2.symm
  have h2 : FPar.resM (phase order.length order.length s.cov + ((2 : ℝ) / 2) • 1) e = phase order.length order.length r.cov + ((2 : ℝ) / 2) • 1 := by
    ext p q
    have h3 : (1 : Matrix (Fin order.length ⊕ Fin order.length) (Fin order.length ⊕ Fin order.length) ℝ) (Sum.map e e p) (Sum.map e e q) = (1 : Matrix _ _ ℝ) p q := by
      rcases p with p | p <;> rcases q with q | q <;> simp [Matrix.one_apply]
    simp only [FPar.resM, Matrix.submatrix_apply, Matrix.add_apply, Matrix.smul_apply, h3]
    congr 1
    rcases p with p | p <;> rcases q with q | q <;> simp only [phase, of_apply, quad, Sum.map_inl, Sum.map_inr, Sum.elim_inl, Sum.elim_inr, he]
    · exact (hr.xx p p.2 q q.2).symm
    · exact (hr.xp p p.2 q q.2).symm
    · exact (hr.px p p.2 q q.2).symm
    · exact (hr.pp p p.2 q q.2).symm
  rw [h1, h2] at h
  exact h

/-! #### The law of the patterns -/

/-- the random numbers for which `generate_hafnian_sample` (ħ = 2) rejects the pattern (returns -1) -/
def rejects (lib : Lib) (s : GState ℝ) (M cutoff maxPhotons : ℕ) : Set ((Fin (2 * M) → ℝ) × (Fin (2 * M) → ℝ) × (Fin M → ℝ)) :=
  {ω | ∃ k, generateHafnianSample (withDraws lib ω.1 ω.2.1 ω.2.2) s 2 cutoff maxPhotons 0 = .ok (none, k)}

/-- the random numbers for which `generate_hafnian_sample` (ħ = 2) returns the pattern `t` -/
def returns (lib : Lib) (s : GState ℝ) (M cutoff maxPhotons : ℕ) (t : Fin M → ℕ) : Set ((Fin (2 * M) → ℝ) × (Fin (2 * M) → ℝ) × (Fin M → ℝ)) :=
  {ω | ∃ k, generateHafnianSample (withDraws lib ω.1 ω.2.1 ω.2.2) s 2 cutoff maxPhotons 0 = .ok (some (List.ofFn t), k)}

/-- a pattern as a sequence -/
def ext {M : ℕ} (t : Fin M → ℕ) (a : ℕ) : ℕ := if h : a < M then t ⟨a, h⟩ else 0

theorem ext_fin {M : ℕ} (t : Fin M → ℕ) (a : Fin M) : ext t a = t a := by simp [ext]

theorem getLastD_ofFn {M : ℕ} (hM : M ≠ 0) (t : Fin M → ℕ) : (List.ofFn t).getLastD 0 = t ⟨M - 1, by omega⟩ := by
  rw [List.getLastD_eq_getLast?, List.getLast?_eq_getElem?, List.length_ofFn, List.getElem?_eq_getElem (by simp; omega), Option.getD_some, List.getElem_ofFn]

/-- what `generate_hafnian_sample` does with the random numbers -/
theorem outcome_setup (lib : Lib) (hl : GoodSampler lib) (htol : 0 ≤ lib.tol) (s : GState ℝ) (M : ℕ) (hM : M ≠ 0) (hs : s.len = 2 * M) (hph : Physical (phase M M s.cov) 2)
    (hsp : ∀ ν, SympSpectrum (phase M M s.cov) ν → ∀ i, ν i = 1 ∨ 1 + 1e-10 ≤ ν i) (cutoff : ℕ) (hc : 1 ≤ cutoff) (maxPhotons : ℕ)
    (ρ : (Fin M → ℕ) → (Fin M → ℕ) → ℂ) (hρ : IsFockMatrix M s.mu s.cov 2 ρ) :
    ∃ E : (Fin M → ℕ) → Set ((Fin (2 * M) → ℝ) × (Fin (2 * M) → ℝ) × (Fin M → ℝ)), (∀ t, MeasurableSet (E t)) ∧ (∀ t t', t ≠ t' → Disjoint (E t) (E t')) ∧
      (∀ t, (∃ i, cutoff < t i) → E t = ∅) ∧
      (∀ t, (∀ i, t i ≤ cutoff) → ENNReal.ofReal (ρ t t).re ≤ drawLaw M (E t)) ∧
      (∀ t, ∀ ω ∈ unitDraws M, ω ∈ returns lib s M cutoff maxPhotons t ↔ ω ∈ E t ∧ t ⟨M - 1, by omega⟩ ≠ cutoff ∧ ∑ i, t i ≤ maxPhotons) ∧
      ∀ ω ∈ unitDraws M, ω ∈ rejects lib s M cutoff maxPhotons ↔ ∃ t, ω ∈ E t ∧ ¬ (t ⟨M - 1, by omega⟩ ≠ cutoff ∧ ∑ i, t i ≤ maxPhotons) := by
  obtain ⟨order, inv, means, r, T, W, C, -, hperm, -, hilen, hip, hinv, hred, hT, hdet, hW, hC, hrun⟩ := generateHafnianSample_born_all lib hl s M hM hs hph hsp cutoff hc maxPhotons
  have hlen : order.length = M := by rw [hperm.length_eq, List.length_range]
  have hnd : order.Nodup := hperm.nodup_iff.mpr List.nodup_range
  have hlt : ∀ a < M, order.getD a 0 < M := fun a ha => by
    rw [List.getD_eq_getElem _ _ (by omega)]
    exact List.mem_range.mp (hperm.mem_iff.mp (List.getElem_mem _))
  have hinj : Function.Injective (fun a : Fin M => (⟨order.getD a 0, hlt a a.2⟩ : Fin M)) := by
    intro a b h
    simp only [Fin.mk.injEq] at h
    rw [List.getD_eq_getElem _ _ (by omega), List.getD_eq_getElem _ _ (by omega)] at h
    exact Fin.ext ((List.Nodup.getElem_inj_iff hnd).mp h)
  obtain ⟨e, he⟩ : ∃ e : Fin M ≃ Fin M, ∀ a : Fin M, (e a : ℕ) = order.getD a 0 := ⟨Equiv.ofBijective _ (Finite.injective_iff_bijective.mp hinj), fun a => rfl⟩
  have hilt : ∀ i : Fin M, inv.getD i 0 < M := fun i => by
    rw [List.getD_eq_getElem _ _ (by omega)]
    exact List.mem_range.mp (hip.mem_iff.mp (List.getElem_mem _))
  have hie : ∀ i : Fin M, e ⟨inv.getD i 0, hilt i⟩ = i := fun i => Fin.ext (by rw [he]; exact hinv i i.2)
  have hex : ∀ mu, ∃ ρ, IsFockMatrix M mu T 2 ρ := fun mu => by
    obtain ⟨ρ, _, _, -, h, -⟩ := fock_gram (N := M) mu (by norm_num : (0 : ℝ) < 2) hT
    exact ⟨ρ, h⟩
  choose ρf hρf using hex
  -- the pattern in the order of the sampler
  have hmap : ∀ (t : Fin M → ℕ) (n : ℕ → ℕ), (∀ i, M ≤ i → n i = 0) → (inv.map n = List.ofFn t ↔ n = ext (t ∘ e)) := by
    intro t n h0
    constructor
    · intro h
      funext a
      by_cases ha : a < M
      · have h1 : inv.getD (e ⟨a, ha⟩) 0 = a := by
          have := hie (e ⟨a, ha⟩)
          exact congrArg Fin.val (e.injective this)
        have h2 := congrArg (fun l => l.getD (e ⟨a, ha⟩) 0) h
        rw [List.getD_eq_getElem _ _ (by simp only [List.length_map]; omega), List.getElem_map, List.getD_eq_getElem _ _ (by simp), List.getElem_ofFn] at h2
        rw [List.getD_eq_getElem _ _ (by omega)] at h1
        rw [h1] at h2
        rw [h2, ext, dif_pos ha]
        rfl
      · rw [h0 a (by omega), ext, dif_neg ha]
    · rintro rfl
      apply List.ext_getElem
      · simp [hilen]
      · intro i h1 h2
        have hi : i < M := by simpa using h2
        rw [List.getElem_map, List.getElem_ofFn]
        have h3 := hie ⟨i, hi⟩
        have h4 : inv[i]'(by omega) = inv.getD i 0 := (List.getD_eq_getElem _ _ (by omega)).symm
        rw [h4, ext, dif_pos (hilt ⟨i, hi⟩), Function.comp_apply]
        exact congrArg t h3
  have hext0 : ∀ (t : Fin M → ℕ) (i : ℕ), M ≤ i → ext t i = 0 := fun t i hi => by rw [ext, dif_neg (by omega)]
  have hextc : ∀ t : Fin M → ℕ, (∀ i, t i ≤ cutoff) → ∀ k, ext t k ≤ cutoff := fun t ht k => by
    unfold ext
    split_ifs
    · exact ht _
    · omega
  refine ⟨fun t => if ∀ i, t i ≤ cutoff then drawEvent r.mu W C ρf cutoff (ext (t ∘ e)) ∩ unitDraws M else ∅, fun t => ?_, fun t t' htt => ?_, fun t ht => ?_, fun t ht => ?_, fun t ω hω => ?_, fun ω hω => ?_⟩
  · beta_reduce
    split_ifs
    · exact (drawEvent_meas r.mu ρf cutoff hT hdet hρf W C _).inter (unitDraws_meas M)
    · exact MeasurableSet.empty
  · beta_reduce
    split_ifs with h1 h2
    · rw [Set.disjoint_left]
      rintro ω ⟨ha, hu⟩ ⟨hb, -⟩
      have h := drawEvent_unique lib htol r.mu ρf cutoff hT hdet hρf ω hu _ _ (hext0 _) (hext0 _) (fun k _ => hextc (t ∘ e) (fun i => h1 _) k) (fun k _ => hextc (t' ∘ e) (fun i => h2 _) k) ha hb
      apply htt
      funext i
      have := congrFun h (e.symm i)
      rw [ext_fin, ext_fin] at this
      simpa using this
    · exact disjoint_bot_right
    · exact disjoint_bot_left
    · exact disjoint_bot_left
  · obtain ⟨i, hi⟩ := ht
    beta_reduce
    rw [if_neg (fun h => absurd (h i) (by omega))]
  · beta_reduce
    rw [if_pos ht, measure_inter_conull (unitDraws_compl M)]
    have h := drawEvent_lower r.mu ρf cutoff hT hdet hρf hW hC (fun i j => ρ (i ∘ e.symm) (j ∘ e.symm)) (fock_reorder s r M order hlen hred e he ρ hρ) (ext (t ∘ e))
      (hextc (t ∘ e) fun i => ht _)
    have h1 : (fun k : Fin M => ext (t ∘ e) k) ∘ e.symm = t := by
      funext i
      simp [ext_fin]
    beta_reduce at h
    rw [h1] at h
    exact h
  · have h1 : ω ∈ returns lib s M cutoff maxPhotons t ↔ ∃ k, bornSampler (withDraws lib ω.1 ω.2.1 ω.2.2) r.mu W C ρf inv cutoff maxPhotons 0 = .ok (some (List.ofFn t), k) := by
      have := hrun (withDraws lib ω.1 ω.2.1 ω.2.2).normal (withDraws lib ω.1 ω.2.1 ω.2.2).uniform ρf hρf
      unfold returns
      change (∃ k, generateHafnianSample { lib with normal := (withDraws lib ω.1 ω.2.1 ω.2.2).normal, uniform := (withDraws lib ω.1 ω.2.1 ω.2.2).uniform } s 2 cutoff maxPhotons 0 = _) ↔ _
      rw [this]
      rfl
    rw [h1, sampler_draws lib htol r.mu ρf cutoff hT hdet hρf ω hω, getLastD_ofFn hM, List.sum_ofFn]
    beta_reduce
    constructor
    · rintro ⟨n, h2, h3, h4, h5, h6, h7⟩
      rw [hmap t n h2] at h5
      subst h5
      refine ⟨?_, h6, h7⟩
      have h8 : ∀ i, t i ≤ cutoff := fun i => by
        have := h3 (e.symm i) (e.symm i).2
        rw [ext_fin] at this
        simpa using this
      rw [if_pos h8]
      exact ⟨h4, hω⟩
    · rintro ⟨h4, h6, h7⟩
      by_cases h8 : ∀ i, t i ≤ cutoff
      · rw [if_pos h8] at h4
        exact ⟨ext (t ∘ e), hext0 _, fun k _ => hextc (t ∘ e) (fun i => h8 _) k, h4.1, (hmap t _ (hext0 _)).mpr rfl, h6, h7⟩
      · rw [if_neg h8] at h4
        exact absurd h4 (Set.notMem_empty _)
  · have h1 : ω ∈ rejects lib s M cutoff maxPhotons ↔ ∃ k, bornSampler (withDraws lib ω.1 ω.2.1 ω.2.2) r.mu W C ρf inv cutoff maxPhotons 0 = .ok (none, k) := by
      have := hrun (withDraws lib ω.1 ω.2.1 ω.2.2).normal (withDraws lib ω.1 ω.2.1 ω.2.2).uniform ρf hρf
      unfold rejects
      change (∃ k, generateHafnianSample { lib with normal := (withDraws lib ω.1 ω.2.1 ω.2.2).normal, uniform := (withDraws lib ω.1 ω.2.1 ω.2.2).uniform } s 2 cutoff maxPhotons 0 = _) ↔ _
      rw [this]
      rfl
    have hbad : ∀ t : Fin M → ℕ, ((List.ofFn t).getLastD 0 = cutoff ∨ maxPhotons < (List.ofFn t).sum) ↔ ¬ (t ⟨M - 1, by omega⟩ ≠ cutoff ∧ ∑ i, t i ≤ maxPhotons) := fun t => by
      rw [getLastD_ofFn hM, List.sum_ofFn]
      constructor
      · rintro (h | h) ⟨h1, h2⟩
        · exact h1 h
        · omega
      · intro h
        by_contra hcon
        push Not at hcon
        exact h ⟨hcon.1, hcon.2⟩
    rw [h1, sampler_rejects lib htol r.mu ρf cutoff hT hdet hρf ω hω]
    beta_reduce
    constructor
    · rintro ⟨n, h2, h3, h4, h5⟩
      have hn : n = ext ((fun i : Fin M => n (e.symm i)) ∘ e) := by
        funext a
        by_cases ha : a < M
        · rw [ext, dif_pos ha]
          simp
        · rw [h2 a (by omega), ext, dif_neg ha]
      have h6 := (hmap (fun i : Fin M => n (e.symm i)) n h2).mpr hn
      refine ⟨fun i : Fin M => n (e.symm i), ?_, (hbad _).mp (h6 ▸ h5)⟩
      rw [if_pos (fun i => h3 _ (e.symm i).2), ← hn]
      exact ⟨h4, hω⟩
    · rintro ⟨t, h4, h5⟩
      by_cases h8 : ∀ i, t i ≤ cutoff
      · rw [if_pos h8] at h4
        refine ⟨ext (t ∘ e), hext0 _, fun k _ => hextc (t ∘ e) (fun i => h8 _) k, h4.1, ?_⟩
        rw [(hmap t _ (hext0 _)).mpr rfl]
        exact (hbad t).mpr h5
      · rw [if_neg h8] at h4
        exact absurd h4 (Set.notMem_empty _)

theorem returns_setup (lib : Lib) (hl : GoodSampler lib) (htol : 0 ≤ lib.tol) (s : GState ℝ) (M : ℕ) (hM : M ≠ 0) (hs : s.len = 2 * M) (hph : Physical (phase M M s.cov) 2)
    (hsp : ∀ ν, SympSpectrum (phase M M s.cov) ν → ∀ i, ν i = 1 ∨ 1 + 1e-10 ≤ ν i) (cutoff : ℕ) (hc : 1 ≤ cutoff) (maxPhotons : ℕ)
    (ρ : (Fin M → ℕ) → (Fin M → ℕ) → ℂ) (hρ : IsFockMatrix M s.mu s.cov 2 ρ) :
    ∃ E : (Fin M → ℕ) → Set ((Fin (2 * M) → ℝ) × (Fin (2 * M) → ℝ) × (Fin M → ℝ)), (∀ t, MeasurableSet (E t)) ∧ (∀ t t', t ≠ t' → Disjoint (E t) (E t')) ∧
      (∀ t, (∃ i, cutoff < t i) → E t = ∅) ∧
      (∀ t, (∀ i, t i ≤ cutoff) → ENNReal.ofReal (ρ t t).re ≤ drawLaw M (E t)) ∧
      ∀ t, ∀ ω ∈ unitDraws M, ω ∈ returns lib s M cutoff maxPhotons t ↔ ω ∈ E t ∧ t ⟨M - 1, by omega⟩ ≠ cutoff ∧ ∑ i, t i ≤ maxPhotons := by
  obtain ⟨E, h1, h2, h3, h4, h5, -⟩ := outcome_setup lib hl htol s M hM hs hph hsp cutoff hc maxPhotons ρ hρ
  exact ⟨E, h1, h2, h3, h4, h5⟩

/-- C92: the law of the patterns that `generate_hafnian_sample` returns (ħ = 2), for every physical Gaussian state with density matrix `ρ` (no symplectic eigenvalue
may exceed 1 by less than 1e-10, see `decompose_cov`).  A pattern `t` within the cutoff, whose last entry is not the cutoff and which does not have more than
`max_photons` photons, is returned with a probability of at least its Born probability `⟨t|ρ|t⟩`, and it exceeds this by no more than the probability that the state
has more than `cutoff` photons in some mode.  No other pattern is returned. -/
theorem generateHafnianSample_law (lib : Lib) (hl : GoodSampler lib) (htol : 0 ≤ lib.tol) (s : GState ℝ) (M : ℕ) (hM : M ≠ 0) (hs : s.len = 2 * M) (hph : Physical (phase M M s.cov) 2)
    (hsp : ∀ ν, SympSpectrum (phase M M s.cov) ν → ∀ i, ν i = 1 ∨ 1 + 1e-10 ≤ ν i) (cutoff : ℕ) (hc : 1 ≤ cutoff) (maxPhotons : ℕ)
    (ρ : (Fin M → ℕ) → (Fin M → ℕ) → ℂ) (hρ : IsFockMatrix M s.mu s.cov 2 ρ) (t : Fin M → ℕ) :
    NullMeasurableSet (returns lib s M cutoff maxPhotons t) (drawLaw M) ∧
    ((∀ i, t i ≤ cutoff) → t ⟨M - 1, by omega⟩ ≠ cutoff → ∑ i, t i ≤ maxPhotons →
      (ρ t t).re ≤ (drawLaw M).real (returns lib s M cutoff maxPhotons t) ∧
      (drawLaw M).real (returns lib s M cutoff maxPhotons t) ≤ (ρ t t).re + ∑' m : {m : Fin M → ℕ // ∃ i, cutoff < m i}, (ρ m m).re) ∧
    ((∃ i, cutoff < t i) ∨ t ⟨M - 1, by omega⟩ = cutoff ∨ maxPhotons < ∑ i, t i → drawLaw M (returns lib s M cutoff maxPhotons t) = 0) := by
  classical
  obtain ⟨E, hm, hd, hemp, hlow, hret⟩ := returns_setup lib hl htol s M hM hs hph hsp cutoff hc maxPhotons ρ hρ
  have hae : ∀ᵐ ω ∂drawLaw M, ω ∈ unitDraws M := by
    rw [ae_iff]
    exact unitDraws_compl M
  have hnn : ∀ m, 0 ≤ (ρ m m).re := fun m => ((fock_isPsd (by norm_num) hph hρ).diag m).1
  by_cases hgood : t ⟨M - 1, by omega⟩ ≠ cutoff ∧ ∑ i, t i ≤ maxPhotons
  · have heq : returns lib s M cutoff maxPhotons t =ᵐ[drawLaw M] E t := by
      filter_upwards [hae] with ω hω
      exact propext ((hret t ω hω).trans ⟨fun h => h.1, fun h => ⟨h, hgood⟩⟩)
    refine ⟨(hm t).nullMeasurableSet.congr heq.symm, fun ht _ _ => ?_, fun hbad => ?_⟩
    · rw [measureReal_congr heq]
      refine ⟨?_, ?_⟩
      · have h1 := hlow t ht
        rw [ENNReal.ofReal_le_iff_le_toReal (measure_ne_top _ _)] at h1
        exact h1
      · set G : Finset (Fin M → ℕ) := Fintype.piFinset fun _ => Finset.range (cutoff + 1) with hG
        have hGm : ∀ m, m ∈ G ↔ ∀ i, m i ≤ cutoff := fun m => by
          simp only [hG, Fintype.mem_piFinset, Finset.mem_range, Nat.lt_succ_iff]
        have h2 : ∑ m ∈ G, (drawLaw M).real (E m) ≤ 1 := by
          rw [← measureReal_biUnion_finset (fun m _ m' _ hmm => hd m m' hmm) fun m _ => hm m]
          exact measureReal_le_one
        have h3 : ∑ m ∈ G.erase t, (ρ m m).re ≤ ∑ m ∈ G.erase t, (drawLaw M).real (E m) := Finset.sum_le_sum fun m hmG => by
          have h1 := hlow m ((hGm m).mp (Finset.mem_of_mem_erase hmG))
          rw [ENNReal.ofReal_le_iff_le_toReal (measure_ne_top _ _)] at h1
          exact h1
        have h4 := Finset.add_sum_erase G (fun m => (drawLaw M).real (E m)) ((hGm t).mpr ht)
        have h5 := Finset.add_sum_erase G (fun m => (ρ m m).re) ((hGm t).mpr ht)
        have h6 : HasSum (fun m => (ρ m m).re) 1 := by
          have := Complex.hasSum_re (fockMatrix_trace (by norm_num) hph hρ)
          simpa using this
        have h7 := h6.summable.sum_add_tsum_subtype_compl G
        rw [h6.tsum_eq] at h7
        have h8 : ∑' m : {m : Fin M → ℕ // ∃ i, cutoff < m i}, (ρ m m).re = ∑' m : {m // m ∉ G}, (ρ m m).re := by
          refine (Equiv.subtypeEquivRight fun m => ?_).tsum_eq (fun m : {m // m ∉ G} => (ρ m m).re)
          rw [hGm]
          push Not
          rfl
        rw [h8]
        beta_reduce at h4 h5
        linarith
    · rcases hbad with h | h | h
      · rw [measure_congr heq, hemp t h, measure_empty]
      · exact absurd h hgood.1
      · exact absurd hgood.2 (by omega)
  · have heq : returns lib s M cutoff maxPhotons t =ᵐ[drawLaw M] (∅ : Set _) := by
      filter_upwards [hae] with ω hω
      exact propext ⟨fun h => absurd ((hret t ω hω).mp h).2 hgood, fun h => False.elim h⟩
    exact ⟨MeasurableSet.empty.nullMeasurableSet.congr heq.symm, fun _ h1 h2 => absurd ⟨h1, h2⟩ hgood, fun _ => by rw [measure_congr heq, measure_empty]⟩

/-- C92: as the cutoff grows, the law of the patterns with at most `max_photons` photons tends to the Born probabilities of the state. -/
theorem generateHafnianSample_limit (lib : Lib) (hl : GoodSampler lib) (htol : 0 ≤ lib.tol) (s : GState ℝ) (M : ℕ) (hM : M ≠ 0) (hs : s.len = 2 * M) (hph : Physical (phase M M s.cov) 2)
    (hsp : ∀ ν, SympSpectrum (phase M M s.cov) ν → ∀ i, ν i = 1 ∨ 1 + 1e-10 ≤ ν i) (maxPhotons : ℕ)
    (ρ : (Fin M → ℕ) → (Fin M → ℕ) → ℂ) (hρ : IsFockMatrix M s.mu s.cov 2 ρ) (t : Fin M → ℕ) (ht : ∑ i, t i ≤ maxPhotons) :
    Filter.Tendsto (fun cutoff => (drawLaw M).real (returns lib s M cutoff maxPhotons t)) Filter.atTop (nhds (ρ t t).re) := by
  classical
  have h6 : HasSum (fun m => (ρ m m).re) 1 := by
    have := Complex.hasSum_re (fockMatrix_trace (by norm_num) hph hρ)
    simpa using this
  have h1 : Filter.Tendsto (fun cutoff : ℕ => (ρ t t).re + ∑' m : {m : Fin M → ℕ // ∃ i, cutoff < m i}, (ρ m m).re) Filter.atTop (nhds ((ρ t t).re + 0)) := by
    refine Filter.Tendsto.const_add _ ?_
    have h2 := tendsto_tsum_compl_atTop_zero fun m => (ρ m m).re
    have h3 : Filter.Tendsto (fun cutoff : ℕ => (Fintype.piFinset fun _ : Fin M => Finset.range (cutoff + 1))) Filter.atTop Filter.atTop := by
      refine Filter.tendsto_atTop_finset_of_monotone (fun a b hab => Fintype.piFinset_subset _ _ fun _ => Finset.range_mono (by omega)) fun m => ?_
      refine ⟨∑ i, m i, ?_⟩
      simp only [Fintype.mem_piFinset, Finset.mem_range, Nat.lt_succ_iff]
      exact fun i => Finset.single_le_sum (fun _ _ => Nat.zero_le _) (Finset.mem_univ i)
    refine (h2.comp h3).congr fun cutoff => ?_
    simp only [Function.comp]
    refine ((Equiv.subtypeEquivRight fun m => ?_).tsum_eq (fun m : {m // m ∉ Fintype.piFinset fun _ : Fin M => Finset.range (cutoff + 1)} => (ρ m m).re)).symm
    simp only [Fintype.mem_piFinset, Finset.mem_range, Nat.lt_succ_iff]
    push Not
    rfl
  rw [add_zero] at h1
  have hev : ∀ᶠ cutoff : ℕ in Filter.atTop, 1 ≤ cutoff ∧ (∀ i, t i ≤ cutoff) ∧ t ⟨M - 1, by omega⟩ ≠ cutoff := by
    filter_upwards [Filter.eventually_ge_atTop (∑ i, t i + 1)] with cutoff hcut
    have h : ∀ i, t i ≤ ∑ i, t i := fun i => Finset.single_le_sum (fun _ _ => Nat.zero_le _) (Finset.mem_univ i)
    exact ⟨by omega, fun i => by have := h i; omega, by have := h ⟨M - 1, by omega⟩; omega⟩
  refine tendsto_of_tendsto_of_tendsto_of_le_of_le' tendsto_const_nhds h1 ?_ ?_
  · filter_upwards [hev] with cutoff h
    exact ((generateHafnianSample_law lib hl htol s M hM hs hph hsp cutoff h.1 maxPhotons ρ hρ t).2.1 h.2.1 h.2.2 ht).1
  · filter_upwards [hev] with cutoff h
    exact ((generateHafnianSample_law lib hl htol s M hM hs hph hsp cutoff h.1 maxPhotons ρ hρ t).2.1 h.2.1 h.2.2 ht).2

/-- a two-mode squeezed state with displacements, cutoff 5, at most 30 photons: the pattern `(2, 3)` -/
example (mu : ℕ → ℝ) : ∃ lib, GoodSampler lib ∧ 0 ≤ lib.tol ∧ ∃ ρ, IsFockMatrix 2 mu tmsExample 2 ρ ∧
    (ρ ![2, 3] ![2, 3]).re ≤ (drawLaw 2).real (returns lib { len := 4, mu := mu, cov := tmsExample } 2 5 30 ![2, 3]) := by
  obtain ⟨lib0, hl0, -⟩ := goodSampler_exists exampleLib
  have hl : GoodSampler { lib0 with tol := 1 } := ⟨hl0.1, hl0.2, hl0.3, hl0.4⟩
  have hph : Physical (phase 2 2 tmsExample) 2 := (physical_iff_spectrum _ 2 (by norm_num) _ tmsExample_spec).mpr fun _ => by norm_num
  obtain ⟨ρ, _, _, -, hρ, -⟩ := fock_gram (N := 2) mu (by norm_num : (0 : ℝ) < 2) hph
  refine ⟨_, hl, by norm_num, ρ, hρ, ?_⟩
  refine ((generateHafnianSample_law _ hl (by norm_num) { len := 4, mu := mu, cov := tmsExample } 2 (by norm_num) rfl hph (fun ν hν i => ?_) 5 (by norm_num) 30 ρ hρ ![2, 3]).2.1
    ?_ ?_ ?_).1
  · left
    have hp := sympSpectrum_unique _ _ _ hν tmsExample_spec
    have hm : ν i ∈ List.ofFn fun _ : Fin 2 => (1 : ℝ) := hp.mem_iff.mp (List.mem_ofFn.mpr ⟨i, rfl⟩)
    obtain ⟨j, hj⟩ := List.mem_ofFn.mp hm
    exact hj.symm
  · intro i; fin_cases i <;> simp
  · simp
  · simp

end Verif.Props
