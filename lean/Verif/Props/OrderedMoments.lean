/-
C94: `s_ordered_expectation` evaluates normally ordered, antinormally ordered and symmetrised products of ladder operators in the density matrix of the state.
-/
import Verif.Props.Wick
import Verif.Props.HafnianHelpers
import Verif.Props.NumberStatistics
import Mathlib.Data.Fintype.Perm
import Mathlib.GroupTheory.Perm.Basic

set_option linter.unusedSectionVars false
set_option linter.unusedSimpArgs false

namespace Verif.Props
open Verif.Model Verif.Model.Symp Verif.Model.Conv Verif.Model.Means Verif.Spec Verif.Lemmas Verif.Lemmas.Symp Verif.Lemmas.FPar Verif.Lemmas.FockS Verif.Lemmas.Word Matrix

variable {N : ℕ} {hbar : ℝ}

/-! ### Averaging over all orders -/

theorem eSum_congr_perm {ι K : Type*} [CommRing K] {F G : ι → List ι → K} {l : List ι} (h : ∀ y ys, (y :: ys).Perm l → F y ys = G y ys) : eSum F l = eSum G l := by
  induction l generalizing F G with
  | nil => rfl
  | cons x xs ih =>
    rw [eSum_cons, eSum_cons, h x xs (List.Perm.refl _)]
    congr 1
    exact ih fun y ys hp => h y (x :: ys) ((List.Perm.swap x y ys).trans (hp.cons x))

theorem eSum_finset {ι K σ : Type*} [CommRing K] (s : Finset σ) (F : σ → ι → List ι → K) (l : List ι) : ∑ t ∈ s, eSum (F t) l = eSum (fun y ys => ∑ t ∈ s, F t y ys) l := by
  induction l generalizing F with
  | nil => simp
  | cons x xs ih => simp only [eSum_cons, Finset.sum_add_distrib, ih]

/-- the covariance of two operators in the order in which the arrangement `π` lists them -/
noncomputable def arranged {m : ℕ} (C : Fin m → Fin m → ℂ) (π : Equiv.Perm (Fin m)) (x y : Fin m) : ℂ := if π.symm x < π.symm y then C x y else C y x

theorem arranged_symm {m : ℕ} (C : Fin m → Fin m → ℂ) (π : Equiv.Perm (Fin m)) (x y : Fin m) : arranged C π x y = arranged C π y x := by
  unfold arranged
  rcases lt_trichotomy (π.symm x) (π.symm y) with h | h | h
  · rw [if_pos h, if_neg (lt_asymm h)]
  · rw [π.symm.injective h]
  · rw [if_neg (lt_asymm h), if_pos h]

theorem arranged_sum {m : ℕ} (D : Fin m → ℂ) (C : Fin m → Fin m → ℂ) (l : List (Fin m)) (hl : l.Nodup) :
    ∑ π : Equiv.Perm (Fin m), lh D (arranged C π) l = (m.factorial : ℂ) * lh D (fun x y => (C x y + C y x) / 2) l := by
  induction hn : l.length using Nat.strong_induction_on generalizing l with
  | _ n ih =>
    cases l with
    | nil => simp [lh, lhN, Fintype.card_perm]
    | cons x xs =>
      simp only [List.length_cons] at hn
      have hx := (List.nodup_cons.mp hl).1
      have hxs := (List.nodup_cons.mp hl).2
      simp only [lh_cons, Finset.sum_add_distrib, ← Finset.mul_sum]
      rw [ih xs.length (by omega) xs hxs rfl, eSum_finset, mul_add, ← eSum_mul_left]
      congr 1
      · ring
      refine eSum_congr_perm fun y ys hp => ?_
      have hy : (y :: ys).Nodup := hp.nodup_iff.mpr hxs
      have hxy : x ∉ y :: ys := fun h => hx (hp.mem_iff.mp h)
      have hne : x ≠ y := fun h => hxy (by simp [h])
      have hlen := hp.length_eq
      simp only [List.length_cons] at hlen
      have hys := ih ys.length (by omega) ys (List.nodup_cons.mp hy).2 rfl
      have hswap : ∑ π : Equiv.Perm (Fin m), arranged C π x y * lh D (arranged C π) ys = ∑ π : Equiv.Perm (Fin m), arranged C (Equiv.swap x y * π) x y * lh D (arranged C (Equiv.swap x y * π)) ys :=
        (Equiv.sum_comp (Equiv.mulLeft (Equiv.swap x y)) fun π => arranged C π x y * lh D (arranged C π) ys).symm
      have hinv : ∀ (π : Equiv.Perm (Fin m)) z, (Equiv.swap x y * π).symm z = π.symm (Equiv.swap x y z) := fun π z => by
        rw [Equiv.symm_apply_eq, Equiv.Perm.mul_apply, Equiv.apply_symm_apply, Equiv.swap_apply_self]
      have hsame : ∀ π : Equiv.Perm (Fin m), lh D (arranged C (Equiv.swap x y * π)) ys = lh D (arranged C π) ys := fun π => by
        refine lh_congr (fun _ _ => rfl) fun i hi j hj => ?_
        have h1 : ∀ z ∈ ys, Equiv.swap x y z = z := fun z hz => Equiv.swap_apply_of_ne_of_ne (fun h => hxy (by simp [← h, hz])) fun h => (List.nodup_cons.mp hy).1 (h ▸ hz)
        unfold arranged
        rw [hinv, hinv, h1 i hi, h1 j hj]
      have hadd : ∀ π : Equiv.Perm (Fin m), arranged C π x y + arranged C (Equiv.swap x y * π) x y = C x y + C y x := fun π => by
        unfold arranged
        rw [hinv, hinv, Equiv.swap_apply_left, Equiv.swap_apply_right]
        rcases lt_or_gt_of_ne (fun h => hne (π.symm.injective h) : π.symm x ≠ π.symm y) with h | h
        · rw [if_pos h, if_neg (lt_asymm h)]
        · rw [if_neg (lt_asymm h), if_pos h, add_comm]
      have h2 : ∑ π : Equiv.Perm (Fin m), arranged C π x y * lh D (arranged C π) ys + ∑ π : Equiv.Perm (Fin m), arranged C π x y * lh D (arranged C π) ys = (C x y + C y x) * ∑ π : Equiv.Perm (Fin m), lh D (arranged C π) ys := by
        conv_lhs => enter [2]; rw [hswap]
        rw [← Finset.sum_add_distrib, Finset.mul_sum]
        refine Finset.sum_congr rfl fun π _ => ?_
        rw [hsame, ← add_mul, hadd]
      rw [hys] at h2
      linear_combination h2 / 2

/-- pairings of the operators listed in the order `π` -/
theorem lh_arranged {m : ℕ} (D : Fin m → ℂ) (C : Fin m → Fin m → ℂ) (π : Equiv.Perm (Fin m)) : lh D C (List.ofFn π) = lh D (arranged C π) (List.finRange m) := by
  have h1 : lh D C (List.ofFn π) = lh D (arranged C π) (List.ofFn π) := by
    refine lh_congr_pw ?_
    rw [List.pairwise_ofFn]
    intro i j hij
    unfold arranged
    rw [Equiv.symm_apply_apply, Equiv.symm_apply_apply, if_pos hij]
  rw [h1]
  refine lh_perm D _ (arranged_symm C π) ?_
  rw [List.perm_ext_iff_of_nodup (List.nodup_ofFn.mpr π.injective) (List.nodup_finRange m)]
  intro a
  simp only [List.mem_ofFn, List.mem_finRange, iff_true, Set.mem_range]
  exact ⟨π.symm a, π.apply_symm_apply a⟩

theorem orderedCov_average (cov : ℕ → ℕ → ℝ) (hsym : ∀ i < 2 * N, ∀ j < 2 * N, cov i j = cov j i) (x y : ℕ) (hx : x < 2 * N) (hy : y < 2 * N) :
    (orderedCov N cov hbar x y + orderedCov N cov hbar y x) / 2 = ladderCov N cov hbar 0 x y := by
  have hs := fun s => ladderCov_symm N cov hbar s hsym x y hx hy
  have hc : ∀ i j, covNumber N cov hbar (-1) i j + covNumber N cov hbar 1 i j = 2 * covNumber N cov hbar 0 i j := fun i j => by
    unfold covNumber
    push_cast
    ring
  unfold orderedCov
  rw [show ladderCov N cov hbar 1 y x = ladderCov N cov hbar 1 x y from (hs 1).symm, show ladderCov N cov hbar (-1) y x = ladderCov N cov hbar (-1) x y from (hs (-1)).symm]
  by_cases h1 : x < N <;> by_cases h2 : y < N
  · rw [if_neg (by omega), if_neg (by omega)]
    simp only [ladderCov, if_pos h1, if_pos h2]
    ring
  · rw [if_neg (by omega), if_pos ⟨by omega, h1⟩]
    simp only [ladderCov, if_neg h2, if_pos h1]
    linear_combination hc x (y - N) / 2
  · rw [if_pos ⟨by omega, h2⟩, if_neg (by omega)]
    simp only [ladderCov, if_neg h1, if_pos h2]
    linear_combination hc y (x - N) / 2
  · rw [if_neg (by omega), if_neg (by omega)]
    simp only [ladderCov, if_neg h1, if_neg h2]
    ring

theorem wick_lh (hh : 0 < hbar) (mu : ℕ → ℝ) (cov : ℕ → ℕ → ℝ) (hph : Physical (phase N N cov) hbar) (ρ : (Fin N → ℕ) → (Fin N → ℕ) → ℂ) (hρ : IsFockMatrix N mu cov hbar ρ) (ops : List ℕ) (hops : ∀ x ∈ ops, x < 2 * N) :
    IsExpectation ρ ops (lh (ladderMean N mu hbar) (orderedCov N cov hbar) ops) := by
  rw [← spec_lhaf_list]
  exact wick_words hh mu cov hph ρ hρ ops hops

/-! ### The code -/

theorem repeated_bound {rpt : List ℕ} (hr : rpt.length = 2 * N) : ∀ x ∈ repeatedIndices rpt, x < 2 * N := fun x hx => hr ▸ repeatedIndices_lt hx

/-- **C94** `s_ordered_expectation` with `s = 1`: the expectation value in the density matrix of the state of the normally ordered product
`∏ (a†_k)^{rpt[k]} ∏ a_k^{rpt[N+k]}`, for every physical Gaussian state and all multiplicities. -/
theorem sOrdered_normal (hh : 0 < hbar) (st : GState ℝ) (hs : st.len = 2 * N) (hph : Physical (phase N N st.cov) hbar) (ρ : (Fin N → ℕ) → (Fin N → ℕ) → ℂ) (hρ : IsFockMatrix N st.mu st.cov hbar ρ) (rpt : List ℕ) (hr : rpt.length = 2 * N) :
    ∃ v, sOrdered isZero (isClose 0 0) st rpt hbar 1 = .ok v ∧ IsExpectation ρ (repeatedIndices rpt) v := by
  refine ⟨_, sOrdered_correct N st hs (physical_sym hph) rpt hr hbar 1, ?_⟩
  have h := wick_lh hh st.mu st.cov hph ρ hρ (repeatedIndices rpt) (repeated_bound hr)
  rwa [lh_congr_pw (C' := ladderCov N st.cov hbar 1), ← moment_lh] at h
  refine (repeatedIndices_sorted rpt).imp fun {a b} hab => ?_
  unfold orderedCov
  rw [if_neg (by omega)]

/-- **C94** `s_ordered_expectation` with `s = -1`: the expectation value of the antinormally ordered product `∏ a_k^{rpt[N+k]} ∏ (a†_k)^{rpt[k]}`. -/
theorem sOrdered_antinormal (hh : 0 < hbar) (st : GState ℝ) (hs : st.len = 2 * N) (hph : Physical (phase N N st.cov) hbar) (ρ : (Fin N → ℕ) → (Fin N → ℕ) → ℂ) (hρ : IsFockMatrix N st.mu st.cov hbar ρ) (cre ann : List ℕ) (hc : cre.length = N) (ha : ann.length = N) :
    ∃ v, sOrdered isZero (isClose 0 0) st (cre ++ ann) hbar (-1) = .ok v ∧ IsExpectation ρ ((repeatedIndices ann).map (N + ·) ++ repeatedIndices cre) v := by
  have hr : (cre ++ ann).length = 2 * N := by rw [List.length_append, hc, ha]; omega
  have hsym := physical_sym hph
  refine ⟨_, sOrdered_correct N st hs hsym _ hr hbar (-1), ?_⟩
  have hp : (repeatedIndices (cre ++ ann)).Perm ((repeatedIndices ann).map (N + ·) ++ repeatedIndices cre) := by
    rw [repeatedIndices_append, hc]
    exact List.perm_append_comm
  have hb := repeated_bound hr
  have h := wick_lh hh st.mu st.cov hph ρ hρ _ fun x hx => hb x (hp.mem_iff.mpr hx)
  rw [moment_lh, lh_perm_mem _ _ (fun i hi j hj => ladderCov_symm N st.cov hbar (-1) hsym i j (hb i hi) (hb j hj)) hp]
  rwa [lh_congr_pw (C' := ladderCov N st.cov hbar (-1))] at h
  have hcc : ∀ x y, x < N → y < N → orderedCov N st.cov hbar x y = ladderCov N st.cov hbar (-1) x y := fun x y hx hy => by
    unfold orderedCov
    rw [if_neg (by omega)]
    simp only [ladderCov, if_pos hx, if_pos hy]
  have haa : ∀ x y, ¬ x < N → ¬ y < N → orderedCov N st.cov hbar x y = ladderCov N st.cov hbar (-1) x y := fun x y hx hy => by
    unfold orderedCov
    rw [if_neg (by omega)]
    simp only [ladderCov, if_neg hx, if_neg hy]
  rw [List.pairwise_append]
  refine ⟨?_, ?_, ?_⟩
  · rw [List.pairwise_map]
    exact (repeatedIndices_sorted ann).imp fun {a b} _ => haa _ _ (by omega) (by omega)
  · refine (repeatedIndices_sorted cre).imp_of_mem fun {a b} ha hb _ => hcc _ _ (hc ▸ repeatedIndices_lt ha) (hc ▸ repeatedIndices_lt hb)
  · intro x hx y hy
    obtain ⟨k, -, rfl⟩ := List.mem_map.mp hx
    have hy : y < N := hc ▸ repeatedIndices_lt hy
    unfold orderedCov
    rw [if_pos ⟨by omega, hy⟩]

/-- the symmetrised product as a sum over pairings -/
theorem symmetrised_core (hh : 0 < hbar) (mu : ℕ → ℝ) (cov : ℕ → ℕ → ℝ) (hph : Physical (phase N N cov) hbar) (ρ : (Fin N → ℕ) → (Fin N → ℕ) → ℂ) (hρ : IsFockMatrix N mu cov hbar ρ) (ops : List ℕ) (hb : ∀ x ∈ ops, x < 2 * N) :
    ∃ v : Equiv.Perm (Fin ops.length) → ℂ, (∀ π, IsExpectation ρ (List.ofFn fun p => ops[π p]) (v π)) ∧ moment N mu cov hbar 0 ops = (∑ π, v π) / (ops.length.factorial : ℂ) := by
  have hsym := physical_sym hph
  refine ⟨fun π => lh (ladderMean N mu hbar) (orderedCov N cov hbar) (List.ofFn fun p => ops[π p]), fun π => wick_lh hh mu cov hph ρ hρ _ fun x hx => ?_, ?_⟩
  · obtain ⟨p, rfl⟩ := List.mem_ofFn.mp hx
    exact hb _ (List.getElem_mem _)
  rw [eq_div_iff (by exact_mod_cast Nat.factorial_ne_zero _), moment_lh, mul_comm]
  have e : ∀ π : Equiv.Perm (Fin ops.length), (List.ofFn fun p => ops[π p]) = (List.ofFn π).map fun i : Fin ops.length => ops[i] := fun π => by
    rw [List.map_ofFn]
    rfl
  have e0 : ops = (List.finRange ops.length).map fun i : Fin ops.length => ops[i] := (map_finRange_get ops).symm
  have hsum := arranged_sum (ladderMean N mu hbar ∘ fun i : Fin ops.length => ops[i]) (fun i j => orderedCov N cov hbar ops[i] ops[j]) (List.finRange ops.length) (List.nodup_finRange _)
  have e1 : ∀ π : Equiv.Perm (Fin ops.length), lh (ladderMean N mu hbar) (orderedCov N cov hbar) (List.ofFn fun p => ops[π p]) = lh (ladderMean N mu hbar ∘ fun i : Fin ops.length => ops[i]) (arranged (fun i j => orderedCov N cov hbar ops[i] ops[j]) π) (List.finRange ops.length) := fun π => by
    rw [e, lh_map, lh_arranged]
  have e2 : lh (ladderMean N mu hbar) (ladderCov N cov hbar 0) ops = lh (ladderMean N mu hbar ∘ fun i : Fin ops.length => ops[i]) (fun i j => ladderCov N cov hbar 0 ops[i] ops[j]) (List.finRange ops.length) := by
    conv_lhs => rw [e0]
    exact lh_map _ _ _ _
  rw [e2, Finset.sum_congr rfl fun π _ => e1 π, hsum]
  congr 1
  refine lh_congr (fun _ _ => rfl) fun i _ j _ => ?_
  exact (orderedCov_average cov hsym ops[i] ops[j] (hb _ (List.getElem_mem _)) (hb _ (List.getElem_mem _))).symm

/-- **C94** `s_ordered_expectation` with `s = 0`: the mean, over all orders of the listed ladder operators, of the expectation values of their products in the density matrix of the state. -/
theorem sOrdered_symmetrised (hh : 0 < hbar) (st : GState ℝ) (hs : st.len = 2 * N) (hph : Physical (phase N N st.cov) hbar) (ρ : (Fin N → ℕ) → (Fin N → ℕ) → ℂ) (hρ : IsFockMatrix N st.mu st.cov hbar ρ) (rpt : List ℕ) (hr : rpt.length = 2 * N) :
    ∃ v : Equiv.Perm (Fin (repeatedIndices rpt).length) → ℂ, (∀ π, IsExpectation ρ (List.ofFn fun p => (repeatedIndices rpt)[π p]) (v π)) ∧
      sOrdered isZero (isClose 0 0) st rpt hbar 0 = .ok ((∑ π, v π) / ((repeatedIndices rpt).length.factorial : ℂ)) := by
  obtain ⟨v, hv, e⟩ := symmetrised_core hh st.mu st.cov hph ρ hρ (repeatedIndices rpt) (repeated_bound hr)
  exact ⟨v, hv, by rw [sOrdered_correct N st hs (physical_sym hph) rpt hr hbar 0, e]⟩

/-- the hypotheses are met: two modes in an entangled state, the product `a†_0 a†_1 a_0 a_0 a_1` -/
example : ∃ (st : GState ℝ) (ρ : (Fin 2 → ℕ) → (Fin 2 → ℕ) → ℂ) (v : ℂ), st.len = 2 * 2 ∧ Physical (phase 2 2 st.cov) 2 ∧ IsFockMatrix 2 st.mu st.cov 2 ρ ∧
    sOrdered isZero (isClose 0 0) st [1, 1, 2, 1] 2 1 = .ok v ∧ IsExpectation ρ [0, 1, 2, 2, 3] v := by
  have hph := (physical_iff_spectrum _ 2 (by norm_num) _ tmsExample_spec).mpr fun _ => by norm_num
  obtain ⟨ρ, _, _, -, hρ, -⟩ := fock_gram (N := 2) (fun k => (k : ℝ)) (by norm_num) hph
  obtain ⟨v, h1, h2⟩ := sOrdered_normal (N := 2) (by norm_num) ⟨4, fun k => (k : ℝ), _⟩ rfl hph ρ hρ [1, 1, 2, 1] rfl
  exact ⟨⟨4, fun k => (k : ℝ), _⟩, ρ, v, rfl, hph, hρ, h1, h2⟩

end Verif.Props
