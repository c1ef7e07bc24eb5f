/-
C99: `click_cumulant` is the joint cumulant of the clicks of threshold detectors.
-/
import Verif.Model.ClickCumulant
import Verif.Props.NumberStatistics
import Verif.Props.ThresholdFock
import Verif.Props.LossFock

set_option linter.style.longLine false
set_option linter.unusedSectionVars false
set_option linter.unusedSimpArgs false

namespace Verif.Props
open Verif.Model Verif.Model.Symp Verif.Model.Conv Verif.Model.Means Verif.Model.Tor Verif.Spec Verif.Lemmas Verif.Lemmas.Symp Verif.Lemmas.FPar Verif.Lemmas.FockS Verif.Lemmas.SetPart Matrix

variable {N : ℕ} {hbar : ℝ}

/-- the sum over the set partitions in the cumulant functions -/
theorem cumulant_sum (modes : List ℕ) (hne : modes ≠ []) (g : List ℕ → Except PyErr ℂ) (M : Finset (Fin modes.length) → ℂ)
    (h : ∀ B : List (Fin modes.length), B ≠ [] → B.Nodup → g (B.map fun i => modes[i]) = .ok (M B.toFinset)) :
    (do
      let ps ← partition modes
      ps.foldlM (fun (kappa : ℂ) (pi : List (List ℕ)) => do
        let term ← pi.foldlM (fun term B => do
          let m ← g B
          pure (term * m)) (((pi.length - 1).factorial : ℂ) * (-1) ^ (pi.length - 1))
        pure (kappa + term)) 0 : Except PyErr ℂ)
      = .ok (∑ Q : Finpartition (Finset.univ : Finset (Fin modes.length)), ((Q.parts.card - 1).factorial : ℂ) * (-1) ^ (Q.parts.card - 1) * ∏ B ∈ Q.parts, M B) := by
  have hmodes : modes = (List.finRange modes.length).map fun i => modes[i] := by
    apply List.ext_getElem
    · simp
    · intro i h1 h2; simp
  have hpart : partition modes = .ok ((parts' (List.finRange modes.length)).map (List.map (List.map fun i : Fin modes.length => modes[i]))) := by
    rw [partition_eq _ hne]
    congr 1
    conv_lhs => rw [hmodes]
    rw [parts'_map]
  rw [hpart]
  show ((parts' (List.finRange modes.length)).map (List.map (List.map fun i : Fin modes.length => modes[i]))).foldlM (fun (kappa : ℂ) (pi : List (List ℕ)) => (do
    let term ← pi.foldlM (fun term B => do
      let m ← g B
      pure (term * m)) (((pi.length - 1).factorial : ℂ) * (-1) ^ (pi.length - 1))
    pure (kappa + term) : Except PyErr ℂ)) 0 = _
  have hnd := List.nodup_finRange modes.length
  have huniv : (List.finRange modes.length).toFinset = Finset.univ := by ext i; simp
  have hkey : ∀ (kappa : ℂ), ∀ p ∈ parts' (List.finRange modes.length), ∀ pi, pi = p.map (List.map fun i : Fin modes.length => modes[i]) →
      (do
        let term ← pi.foldlM (fun term B => do
          let m ← g B
          pure (term * m)) (((pi.length - 1).factorial : ℂ) * (-1) ^ (pi.length - 1))
        pure (kappa + term) : Except PyErr ℂ)
      = .ok (kappa + (((blocks p).card - 1).factorial : ℂ) * (-1) ^ ((blocks p).card - 1) * ∏ B ∈ blocks p, M B) := by
    intro kappa p hp pi hpi
    have hsp := splits_all _ p hp
    have hBn : ∀ B ∈ p, B.Nodup := (List.nodup_flatten.mp ((hsp.perm.nodup_iff).mpr hnd)).1
    have hblocks : (p.map List.toFinset).Nodup := by
      rw [List.nodup_iff_injective_get]
      intro n m h
      have hn : n.1 < p.length := by simpa using n.2
      have hm : m.1 < p.length := by simpa using m.2
      apply Fin.ext
      apply hsp.inj hnd n m hn hm
      simpa using h
    have hcard : pi.length = (blocks p).card := by
      unfold blocks
      rw [List.toFinset_card_of_nodup hblocks, List.length_map, hpi, List.length_map]
    rw [hcard]
    subst hpi
    rw [List.foldlM_map]
    rw [foldlM_prod p _ fun B => M B.toFinset]
    · simp only [bind, Except.bind, pure, Except.pure]
      congr 3
      unfold blocks
      rw [List.prod_toFinset _ hblocks, List.map_map]
      rfl
    · intro B hB t
      rw [h B (hsp.ne B hB) (hBn B hB)]
      rfl
  rw [List.foldlM_map]
  rw [foldlM_sum' (K := ℂ) (parts' (List.finRange modes.length)) _
    (fun p => (((blocks p).card - 1).factorial : ℂ) * (-1) ^ ((blocks p).card - 1) * ∏ B ∈ blocks p, M B)
    (fun p hp t => hkey t p hp _ rfl), zero_add]
  rw [sum_parts (List.finRange modes.length) hnd fun S => ((S.card - 1).factorial : ℂ) * (-1) ^ (S.card - 1) * ∏ B ∈ S, M B]
  congr 1
  rw [huniv]

/-- the diagonal of a reduced density matrix -/
theorem partialTrace_diag {M : ℕ} (f : Fin M → Fin N) {ρ : (Fin N → ℕ) → (Fin N → ℕ) → ℂ} {ρ' : (Fin M → ℕ) → (Fin M → ℕ) → ℂ} (h : IsPartialTrace f ρ ρ') (t : Fin M → ℕ) :
    HasSum (fun n : {n : Fin N → ℕ // n ∘ f = t} => ρ n n) (ρ' t t) := by
  let e : {n : Fin N → ℕ // n ∘ f = t} ≃ {x : (Fin N → ℕ) × (Fin N → ℕ) // x.1 ∘ f = t ∧ x.2 ∘ f = t ∧ ∀ k, k ∉ Set.range f → x.1 k = x.2 k} :=
    { toFun := fun n => ⟨(n.1, n.1), n.2, n.2, fun _ _ => rfl⟩
      invFun := fun x => ⟨x.1.1, x.2.1⟩
      left_inv := fun n => rfl
      right_inv := fun x => by
        obtain ⟨⟨a, b⟩, h1, h2, h3⟩ := x
        have : a = b := by
          funext k
          by_cases hk : k ∈ Set.range f
          · obtain ⟨i, rfl⟩ := hk
            exact congrFun (h1.trans h2.symm) i
          · exact h3 k hk
        subst this
        rfl }
  exact e.hasSum_iff.mpr (h t t)

/-- the probability of clicks in some modes, from the reduced state -/
theorem clicks_reduced {M : ℕ} (f : Fin M → Fin N) {ρ : (Fin N → ℕ) → (Fin N → ℕ) → ℂ} {ρ' : (Fin M → ℕ) → (Fin M → ℕ) → ℂ} (h : IsPartialTrace f ρ ρ') (h0 : ∀ n, 0 ≤ (ρ n n).re)
    (hs : Summable fun n => (ρ n n).re) (P : (Fin M → ℕ) → Prop) (p : ℝ) (hp : HasSum (fun t : {t // P t} => (ρ' t t).re) p) : HasSum (fun n : {n : Fin N → ℕ // P (n ∘ f)} => (ρ n n).re) p := by
  classical
  rw [hasSum_restrict (fun t => (ρ' t t).re) P] at hp
  rw [hasSum_restrict (fun n => (ρ n n).re) fun n => P (n ∘ f)]
  have hs2 : Summable fun n => (ρ n n).re * if P (n ∘ f) then 1 else 0 :=
    Summable.of_nonneg_of_le (fun n => by split_ifs <;> simp [h0]) (fun n => by split_ifs <;> simp [h0]) hs
  have h1 := hs2.hasSum
  rw [← (Equiv.sigmaFiberEquiv fun n : Fin N → ℕ => n ∘ f).hasSum_iff] at h1
  have h2 := h1.sigma (g := fun t => (ρ' t t).re * if P t then 1 else 0) fun t => by
    have h3 := (Complex.hasSum_re (partialTrace_diag f h t)).mul_right (if P t then (1 : ℝ) else 0)
    refine h3.congr_fun ?_
    rintro ⟨n, rfl⟩
    rfl
  rw [h2.unique hp] at h1
  exact (Equiv.sigmaFiberEquiv fun n : Fin N → ℕ => n ∘ f).hasSum_iff.mp h1

section fock
variable {chol : ℕ → (ℕ → ℕ → ℂ) → Except PyErr (ℕ → ℕ → ℂ)} (hchol : CholeskyContract chol) (closeMu : ℝ → Bool) (hcl : ∀ x, closeMu x = true ↔ x = 0)
  (ord : List ℕ → List ℕ) (hord : ∀ B, (ord B).Perm B.dedup) (hh : 0 < hbar) (st : GState ℝ) (hs : st.len = 2 * N) (hph : Physical (phase N N st.cov) hbar)
  (ρ : (Fin N → ℕ) → (Fin N → ℕ) → ℂ) (hρ : IsFockMatrix N st.mu st.cov hbar ρ)
include hchol hcl hord hh hs hph hρ

/-- a factor of `click_cumulant` is the probability that the listed modes all click -/
theorem clickBlock_fock (B : List ℕ) (hB : B ≠ []) (hb : ∀ m ∈ B, m < N) :
    ∃ p : ℝ, clickBlock chol closeMu ord st hbar B = .ok (p : ℂ) ∧ HasSum (fun n : {n : Fin N → ℕ // ∀ m ∈ B, 0 < numSeq n m} => (ρ n n).re) p := by
  classical
  have hnd : (ord B).Nodup := (hord B).nodup_iff.mpr (List.nodup_dedup B)
  have hmem : ∀ m, m ∈ ord B ↔ m ∈ B := fun m => by rw [(hord B).mem_iff, List.mem_dedup]
  have hb' : ∀ m ∈ ord B, m < N := fun m hm => hb m ((hmem m).mp hm)
  have hne : ord B ≠ [] := by
    obtain ⟨x, hx⟩ := List.exists_mem_of_ne_nil B hB
    exact List.ne_nil_of_mem ((hmem x).mpr hx)
  change ∃ p : ℝ, ((reducedGaussian st (ord B)).bind fun red => thresholdProb chol closeMu red ((ord B).map fun _ => 1) hbar) = .ok (p : ℂ) ∧ _
  generalize ord B = C at hnd hmem hb' hne ⊢
  have hpat : ∀ M (hM : M = C.length) (k : Fin M), (C.map fun _ => 1).getD k 0 = 1 := fun M hM k => by
    rw [List.getD_eq_getElem _ _ (by simp; omega)]
    simp
  have h01 : ∀ x ∈ C.map fun _ => 1, x = 0 ∨ x = 1 := fun x hx => by
    obtain ⟨_, -, rfl⟩ := List.mem_map.mp hx
    exact Or.inr rfl
  have h0 : ∀ n, 0 ≤ (ρ n n).re := fun m => ((fock_isPsd hh hph hρ).diag m).1
  have hsum : Summable fun n => (ρ n n).re := (Complex.hasSum_re (fockMatrix_trace hh hph hρ)).summable
  have hnum : ∀ (n : Fin N → ℕ) m (h : m < N), numSeq n m = n ⟨m, h⟩ := fun n m h => by simp [numSeq, h]
  by_cases hlen : C.length = N
  · have hred : reducedGaussian st C = .ok st := by
      unfold reducedGaussian
      have hN : st.len / 2 = N := by omega
      dsimp only
      rw [hN, if_neg, if_pos hlen]
      intro h
      obtain ⟨m, hm, h⟩ := List.any_eq_true.mp h
      have := hb' m hm
      simp at h
      omega
    obtain ⟨p, h1, h2, -, -⟩ := thresholdProb_fock hchol closeMu hcl st hs hh hph hρ (C.map fun _ => 1) (by simpa using hlen) h01
    refine ⟨p, ?_, ?_⟩
    · rw [hred]
      exact h1
    · have h3 := Complex.hasSum_re h2
      rw [Complex.ofReal_re] at h3
      have hsurj : ∀ k : Fin N, (k : ℕ) ∈ C := fun k => by
        have h4 : C.toFinset = Finset.range N := Finset.eq_of_subset_of_card_le (fun m hm => Finset.mem_range.mpr (hb' m (List.mem_toFinset.mp hm))) (by
          rw [List.toFinset_card_of_nodup hnd, Finset.card_range, hlen])
        rw [← List.mem_toFinset, h4]
        exact Finset.mem_range.mpr k.2
      refine (Equiv.subtypeEquivRight fun n => ?_).hasSum_iff.mp h3
      simp only [hpat N hlen.symm, iff_true]
      constructor
      · intro h m hm
        rw [hnum n m (hb m hm)]
        exact h _
      · intro h k
        have := h k ((hmem k).mp (hsurj k))
        rwa [hnum n k k.2] at this
  · obtain ⟨r, hr, hred⟩ := reducedGaussian_partial N st hs C hne hb' (Or.inl hlen)
    obtain ⟨ρ', hph', hρ', htr⟩ := reduction_trace st r C hnd hb' hred hh hph hρ
    obtain ⟨p, h1, h2, -, -⟩ := thresholdProb_fock hchol closeMu hcl r hred.len hh hph' hρ' (C.map fun _ => 1) (by simp) h01
    refine ⟨p, ?_, ?_⟩
    · rw [hr]
      exact h1
    · have h3 := Complex.hasSum_re h2
      rw [Complex.ofReal_re] at h3
      have h4 := clicks_reduced _ htr h0 hsum _ p h3
      refine (Equiv.subtypeEquivRight fun n => ?_).hasSum_iff.mp h4
      simp only [hpat _ rfl, iff_true, Function.comp]
      constructor
      · intro h m hm
        rw [hnum n m (hb m hm)]
        obtain ⟨a, ha, e⟩ := List.getElem_of_mem ((hmem m).mpr hm)
        have := h ⟨a, ha⟩
        simp only [Fin.getElem_fin, e] at this
        exact this
      · intro h k
        have := h C[k] ((hmem _).mp (List.getElem_mem _))
        rwa [hnum n C[k] (hb' _ (List.getElem_mem _))] at this

/-- **C99** `click_cumulant` of a list of modes (repetitions allowed) is the joint cumulant of the clicks of threshold detectors in these modes: `Σ_π (-1)^{|π|-1} (|π|-1)! ∏_{B ∈ π} P(B)` over all
partitions `π` of the positions in the list, where `P(B)` is the probability, in the photon-number distribution of the state, that each of the modes at the positions in `B` contains photons. -/
theorem clickCumulant_fock (modes : List ℕ) (hne : modes ≠ []) (hb : ∀ m ∈ modes, m < N) :
    ∃ P : Finset (Fin modes.length) → ℝ, (∀ B, B.Nonempty → HasSum (fun n : {n : Fin N → ℕ // ∀ i ∈ B, 0 < numSeq n modes[i]} => (ρ n n).re) (P B)) ∧
      clickCumulant chol closeMu ord st modes hbar
        = .ok ((∑ Q : Finpartition (Finset.univ : Finset (Fin modes.length)), ((Q.parts.card - 1).factorial : ℝ) * (-1) ^ (Q.parts.card - 1) * ∏ B ∈ Q.parts, P B : ℝ) : ℂ) := by
  classical
  have hex : ∀ B : Finset (Fin modes.length), ∃ p : ℝ, B.Nonempty → HasSum (fun n : {n : Fin N → ℕ // ∀ i ∈ B, 0 < numSeq n modes[i]} => (ρ n n).re) p := fun B => by
    by_cases h : B.Nonempty
    · obtain ⟨p, -, h1⟩ := clickBlock_fock hchol closeMu hcl ord hord hh st hs hph ρ hρ (B.toList.map fun i => modes[i]) (by simpa using h.ne_empty) (fun m hm => by
        obtain ⟨i, -, rfl⟩ := List.mem_map.mp hm
        exact hb _ (List.getElem_mem _))
      refine ⟨p, fun _ => (Equiv.subtypeEquivRight fun n => ?_).hasSum_iff.mp h1⟩
      simp
    · exact ⟨0, fun h' => absurd h' h⟩
  choose P hP using hex
  refine ⟨P, hP, ?_⟩
  have := cumulant_sum modes hne (clickBlock chol closeMu ord st hbar) (fun B => (P B : ℂ)) fun B hB hBn => by
    obtain ⟨p, h1, h2⟩ := clickBlock_fock hchol closeMu hcl ord hord hh st hs hph ρ hρ (B.map fun i => modes[i]) (by simpa using hB) (fun m hm => by
      obtain ⟨i, -, rfl⟩ := List.mem_map.mp hm
      exact hb _ (List.getElem_mem _))
    rw [h1]
    congr 2
    refine HasSum.unique ?_ (hP B.toFinset (by simpa using List.toFinset_nonempty_iff B |>.mpr hB))
    refine (Equiv.subtypeEquivRight fun n => ?_).hasSum_iff.mp h2
    simp
  refine Eq.trans this ?_
  congr 1
  push_cast
  rfl

/-- **C99** the cumulants of one and of two modes: the click probability, and the covariance of the clicks (for `i = j`, the variance) -/
theorem clickCumulant_small (i j : ℕ) (hi : i < N) (hj : j < N) :
    ∃ p q r : ℝ, HasSum (fun n : {n : Fin N → ℕ // 0 < n ⟨i, hi⟩} => (ρ n n).re) p ∧ HasSum (fun n : {n : Fin N → ℕ // 0 < n ⟨j, hj⟩} => (ρ n n).re) q ∧
      HasSum (fun n : {n : Fin N → ℕ // 0 < n ⟨i, hi⟩ ∧ 0 < n ⟨j, hj⟩} => (ρ n n).re) r ∧
      clickCumulant chol closeMu ord st [i] hbar = .ok (p : ℂ) ∧ clickCumulant chol closeMu ord st [i, j] hbar = .ok ((r - p * q : ℝ) : ℂ) := by
  obtain ⟨p, hp, hp'⟩ := clickBlock_fock hchol closeMu hcl ord hord hh st hs hph ρ hρ [i] (by simp) (by simpa using hi)
  obtain ⟨q, hq, hq'⟩ := clickBlock_fock hchol closeMu hcl ord hord hh st hs hph ρ hρ [j] (by simp) (by simpa using hj)
  obtain ⟨r, hr, hr'⟩ := clickBlock_fock hchol closeMu hcl ord hord hh st hs hph ρ hρ [i, j] (by simp) (by simp [hi, hj])
  refine ⟨p, q, r, ?_, ?_, ?_, ?_, ?_⟩
  · refine (Equiv.subtypeEquivRight fun n => ?_).hasSum_iff.mp hp'
    simp [numSeq, hi]
  · refine (Equiv.subtypeEquivRight fun n => ?_).hasSum_iff.mp hq'
    simp [numSeq, hj]
  · refine (Equiv.subtypeEquivRight fun n => ?_).hasSum_iff.mp hr'
    simp [numSeq, hi, hj]
  · have h1 : partition [i] = .ok [[[i]]] := rfl
    unfold clickCumulant
    rw [h1]
    simp only [bind, Except.bind, pure, Except.pure, List.foldlM_cons, List.foldlM_nil, hp]
    simp
  · have h1 : partition [i, j] = .ok [[[i, j]], [[i], [j]]] := rfl
    unfold clickCumulant
    rw [h1]
    simp only [bind, Except.bind, pure, Except.pure, List.foldlM_cons, List.foldlM_nil, hp, hq, hr]
    simp
    ring

end fock

/-- the clicks of a photon pattern -/
def clicksOf (n : Fin N → ℕ) : ℕ → Bool := fun k => decide (0 < numSeq n k)

theorem clicks_of (n : Fin N → ℕ) : clicks N (clicksOf n) = ((Finset.univ.filter fun k => 0 < n k).card : ℝ) := by
  unfold clicks
  rw [Finset.sum_range, Finset.card_filter]
  push_cast
  refine Finset.sum_congr rfl fun k _ => ?_
  simp [clicksOf, numSeq_fin]

/-- the expectation of a function of the clicks in the photon-number distribution -/
theorem clickStats_fock (hh : 0 < hbar) {cov : ℕ → ℕ → ℝ} (hph : Physical (phase N N cov) hbar) {ρ : (Fin N → ℕ) → (Fin N → ℕ) → ℂ} (hρ : IsFockMatrix N (fun _ => 0) cov hbar ρ) :
    ∃ E : ((ℕ → Bool) → ℝ) →ₗ[ℝ] ℝ, ClickStats N cov hbar E ∧ ∀ g, HasSum (fun n : Fin N → ℕ => g (clicksOf n) * (ρ n n).re) (E g) := by
  classical
  have h0 : ∀ n, 0 ≤ (ρ n n).re := fun m => ((fock_isPsd hh hph hρ).diag m).1
  have hsum : Summable fun n => (ρ n n).re := (Complex.hasSum_re (fockMatrix_trace hh hph hρ)).summable
  have hfin : (Set.range (clicksOf : (Fin N → ℕ) → ℕ → Bool)).Finite := by
    refine (Set.finite_range fun (b : Fin N → Bool) (k : ℕ) => if h : k < N then b ⟨k, h⟩ else false).subset ?_
    rintro _ ⟨n, rfl⟩
    refine ⟨fun k => decide (0 < n k), funext fun k => ?_⟩
    by_cases hk : k < N
    · simp [clicksOf, numSeq, hk]
    · simp [clicksOf, numSeq, hk]
  have hg : ∀ g : (ℕ → Bool) → ℝ, Summable fun n : Fin N → ℕ => g (clicksOf n) * (ρ n n).re := fun g => by
    obtain ⟨C, hC⟩ := (hfin.image fun b => |g b|).bddAbove
    refine Summable.of_norm_bounded (hsum.mul_left C) fun n => ?_
    rw [Real.norm_eq_abs, abs_mul, abs_of_nonneg (h0 n)]
    exact mul_le_mul_of_nonneg_right (hC ⟨_, ⟨n, rfl⟩, rfl⟩) (h0 n)
  refine ⟨{ toFun := fun g => ∑' n : Fin N → ℕ, g (clicksOf n) * (ρ n n).re, map_add' := fun f g => ?_, map_smul' := fun c g => ?_ }, fun S hS => ?_, fun g => (hg g).hasSum⟩
  · rw [← (hg f).tsum_add (hg g)]
    exact tsum_congr fun n => by rw [Pi.add_apply, add_mul]
  · rw [RingHom.id_apply, smul_eq_mul, ← tsum_mul_left]
    exact tsum_congr fun n => by rw [Pi.smul_apply, smul_eq_mul, mul_assoc]
  · have h1 := Complex.hasSum_re (vacProb_fock hh hph hρ S hS)
    rw [Complex.ofReal_re, expo_zero, hasSum_restrict (fun n => (ρ n n).re) fun n : Fin N → ℕ => ∀ k : Fin N, (k : ℕ) ∈ S → n k = 0] at h1
    rw [← h1.tsum_eq]
    refine tsum_congr fun n => ?_
    rw [mul_comm]
    congr 1
    refine if_congr ?_ rfl rfl
    constructor
    · intro h k hk
      have := h k hk
      simpa [clicksOf, numSeq_fin] using this
    · intro h j hj
      have hjN := Finset.mem_range.mp (hS hj)
      have := h ⟨j, hjN⟩ hj
      simp [clicksOf, numSeq, hjN, this]

/-- **C99** `mean_clicks` and `variance_clicks` are the mean and the variance of the number of modes with photons in the photon-number distribution of the state without displacement. -/
theorem clicks_fock (hh : 0 < hbar) {cov : ℕ → ℕ → ℝ} (hph : Physical (phase N N cov) hbar) {ρ : (Fin N → ℕ) → (Fin N → ℕ) → ℂ} (hρ : IsFockMatrix N (fun _ => 0) cov hbar ρ) :
    HasSum (fun n : Fin N → ℕ => ((Finset.univ.filter fun k => 0 < n k).card : ℝ) * (ρ n n).re) (meanClicks N cov hbar) ∧
    ∃ v, varianceClicks N cov hbar = .ok v ∧ HasSum (fun n : Fin N → ℕ => ((Finset.univ.filter fun k => 0 < n k).card : ℝ) ^ 2 * (ρ n n).re) (v + meanClicks N cov hbar ^ 2) := by
  obtain ⟨E, hE, hf⟩ := clickStats_fock hh hph hρ
  have hsym := physical_sym hph
  refine ⟨?_, _, varianceClicks_correct N cov hsym hbar hh E hE, ?_⟩
  · rw [meanClicks_correct N cov hsym hbar hh E hE]
    simpa only [clicks_of] using hf (clicks N)
  · rw [meanClicks_correct N cov hsym hbar hh E hE, sub_add_cancel]
    simpa only [clicks_of] using hf fun b => clicks N b ^ 2

/-- the empty list of modes raises -/
theorem clickCumulant_nil (chol : ℕ → (ℕ → ℕ → ℂ) → Except PyErr (ℕ → ℕ → ℂ)) (closeMu : ℝ → Bool) (ord : List ℕ → List ℕ) (st : GState ℝ) (hbar : ℝ) :
    clickCumulant chol closeMu ord st [] hbar = .error .indexError := rfl

/-- the hypotheses are met: two modes in an entangled, displaced state, modes `0, 1, 0` -/
example (chol : ℕ → (ℕ → ℕ → ℂ) → Except PyErr (ℕ → ℕ → ℂ)) (hchol : CholeskyContract chol) (closeMu : ℝ → Bool) (hcl : ∀ x, closeMu x = true ↔ x = 0) :
    ∃ v, clickCumulant chol closeMu List.dedup ⟨4, fun k => (k : ℝ), tmsExample⟩ [0, 1, 0] 2 = .ok v := by
  have hph := (physical_iff_spectrum _ 2 (by norm_num) _ tmsExample_spec).mpr fun _ => by norm_num
  obtain ⟨ρ, _, _, -, hρ, -⟩ := fock_gram (N := 2) (fun k => (k : ℝ)) (by norm_num) hph
  obtain ⟨P, -, h⟩ := clickCumulant_fock (N := 2) hchol closeMu hcl List.dedup (fun B => List.Perm.refl _) (by norm_num : (0 : ℝ) < 2) ⟨4, fun k => (k : ℝ), tmsExample⟩ rfl hph ρ hρ [0, 1, 0] (by simp) (by simp)
  exact ⟨_, h⟩

end Verif.Props
