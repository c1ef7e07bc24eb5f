/-
C46: `partition` lists every set partition once; `photon_number_cumulant` is the joint cumulant of the photon numbers.
-/
import Verif.Props.Moments
import Verif.Lemmas.SetPartition

set_option linter.unusedSectionVars false
set_option linter.unusedSimpArgs false

namespace Verif.Props
open Verif.Model Verif.Model.Symp Verif.Model.Means Verif.Spec Verif.Lemmas Verif.Lemmas.SetPart

/-- C46: for a non-empty collection of distinct elements the results of `partition`, read as sets of sets, are pairwise different, and they
are exactly the partitions of the set of elements; the blocks of each result, put together, are the collection, and none is empty. -/
theorem partition_correct {α : Type} [DecidableEq α] (l : List α) (hne : l ≠ []) (hl : l.Nodup) :
    ∃ P, partition l = .ok P
      ∧ (∀ p ∈ P, (∀ B ∈ p, B ≠ []) ∧ p.flatten.Perm l)
      ∧ (P.map fun p => (p.map List.toFinset).toFinset).Nodup
      ∧ ∀ S : Finset (Finset α), S ∈ P.map (fun p => (p.map List.toFinset).toFinset) ↔ ∃ Q : Finpartition l.toFinset, Q.parts = S := by
  refine ⟨parts' l, partition_eq l hne, fun p hp => ⟨(splits_all l p hp).ne, (splits_all l p hp).perm⟩, nodup_all l hl, fun S => ⟨fun h => ?_, ?_⟩⟩
  · obtain ⟨p, hp, rfl⟩ := List.mem_map.mp h
    exact sound hl (splits_all l p hp)
  · rintro ⟨Q, rfl⟩
    obtain ⟨p, hp, e⟩ := complete l hl Q
    exact List.mem_map.mpr ⟨p, hp, e⟩

/-- C46: as many results as there are set partitions. -/
theorem partition_count {α : Type} [DecidableEq α] (l : List α) (hne : l ≠ []) (hl : l.Nodup) :
    ∃ P, partition l = .ok P ∧ P.length = Fintype.card (Finpartition l.toFinset) := by
  refine ⟨parts' l, partition_eq l hne, ?_⟩
  have := sum_parts l hl fun _ => (1 : ℕ)
  simpa using this

/-- the elements of a collection with repetitions are treated as if they were distinct -/
theorem partition_map {α β : Type} (f : α → β) (l : List α) (hne : l ≠ []) :
    ∃ P, partition l = .ok P ∧ partition (l.map f) = .ok (P.map (List.map (List.map f))) :=
  ⟨parts' l, partition_eq l hne, by rw [partition_eq _ (by simpa using hne), parts'_map]⟩

/-- the empty collection raises (its only partition, the empty one, is not yielded) -/
theorem partition_nil {α : Type} : partition ([] : List α) = .error .indexError := rfl

theorem listToFreq_prod (B : List ℕ) (n : ℕ → ℕ) : ((listToFreq B).map fun p => (n p.1 : ℂ) ^ p.2).prod = (B.map fun j => (n j : ℂ)).prod := by
  unfold listToFreq
  rw [List.map_map, ← List.prod_toFinset _ (List.nodup_dedup B), Finset.prod_list_map_count]
  rw [show B.dedup.toFinset = B.toFinset by ext x; simp]
  rfl

theorem foldlM_prod {K α : Type} [CommRing K] (l : List α) (f : K → α → Except PyErr K) (g : α → K)
    (h : ∀ a ∈ l, ∀ t, f t a = .ok (t * g a)) (t : K) : l.foldlM f t = (.ok (t * (l.map g).prod) : Except PyErr K) := by
  induction l generalizing t with
  | nil => simp [pure, Except.pure]
  | cons a l ih =>
    rw [List.foldlM_cons, h a (by simp)]
    simp only [bind, Except.bind]
    rw [ih fun b hb => h b (by simp [hb]), List.map_cons, List.prod_cons, mul_assoc]

/-- C46: `photon_number_cumulant` of a non-empty list of modes (repetitions allowed) is the joint cumulant
`Σ_π (-1)^{|π|-1} (|π|-1)! ∏_{B ∈ π} ⟨∏_{i ∈ B} n_{modes[i]}⟩`, over all partitions `π` of the positions in the list. -/
theorem photonNumberCumulant_correct (N : ℕ) (st : GState ℝ) (hs : st.len = 2 * N) (hsym : ∀ i < 2 * N, ∀ j < 2 * N, st.cov i j = st.cov j i)
    (hbar : ℝ) (E : ((ℕ → ℕ) → ℂ) →ₗ[ℂ] ℂ) (hE : NumberStats N st.mu st.cov hbar E) (modes : List ℕ) (hne : modes ≠ []) (hb : ∀ m ∈ modes, m < N) :
    photonNumberCumulant isZero (isClose 0 0) st modes hbar
      = .ok (∑ Q : Finpartition (Finset.univ : Finset (Fin modes.length)),
          ((Q.parts.card - 1).factorial : ℂ) * (-1) ^ (Q.parts.card - 1) * ∏ B ∈ Q.parts, E fun n => ∏ i ∈ B, (n modes[i] : ℂ)) := by
  have hmodes : modes = (List.finRange modes.length).map fun i => modes[i] := by
    apply List.ext_getElem
    · simp
    · intro i h1 h2; simp
  have hpart : partition modes = .ok ((parts' (List.finRange modes.length)).map (List.map (List.map fun i : Fin modes.length => modes[i]))) := by
    rw [partition_eq _ hne]
    congr 1
    conv_lhs => rw [hmodes]
    rw [parts'_map]
  unfold photonNumberCumulant
  rw [hpart]
  show ((parts' (List.finRange modes.length)).map (List.map (List.map fun i : Fin modes.length => modes[i]))).foldlM (fun (kappa : ℂ) (pi : List (List ℕ)) => (do
    let term ← pi.foldlM (fun term B => do
      let m ← photonNumberMoment isZero (isClose 0 0) st (listToFreq B) hbar
      pure (term * m)) (((pi.length - 1).factorial : ℂ) * (-1) ^ (pi.length - 1))
    pure (kappa + term) : Except PyErr ℂ)) 0 = _
  have hnd := List.nodup_finRange modes.length
  have huniv : (List.finRange modes.length).toFinset = Finset.univ := by ext i; simp
  have hkey : ∀ (kappa : ℂ), ∀ p ∈ parts' (List.finRange modes.length), ∀ pi, pi = p.map (List.map fun i : Fin modes.length => modes[i]) →
      (do
        let term ← pi.foldlM (fun term B => do
          let m ← photonNumberMoment isZero (isClose 0 0) st (listToFreq B) hbar
          pure (term * m)) (((pi.length - 1).factorial : ℂ) * (-1) ^ (pi.length - 1))
        pure (kappa + term) : Except PyErr ℂ)
      = .ok (kappa + (((blocks p).card - 1).factorial : ℂ) * (-1) ^ ((blocks p).card - 1) * ∏ B ∈ blocks p, E fun n => ∏ i ∈ B, (n modes[i] : ℂ)) := by
    intro kappa p hp pi hpi
    have hsp := splits_all _ p hp
    have hmemlt : ∀ B ∈ pi, ∀ x ∈ B, x < N := by
      intro B hB x hx
      rw [hpi] at hB
      obtain ⟨B', hB', rfl⟩ := List.mem_map.mp hB
      obtain ⟨i, _, rfl⟩ := List.mem_map.mp hx
      exact hb _ (List.getElem_mem _)
    rw [foldlM_prod pi _ fun B => E fun n => (B.map fun j => (n j : ℂ)).prod]
    · simp only [bind, Except.bind, pure, Except.pure]
      congr 2
      have hblocks : (p.map List.toFinset).Nodup := by
        rw [List.nodup_iff_injective_get]
        intro n m h
        have hn : n.1 < p.length := by simpa using n.2
        have hm : m.1 < p.length := by simpa using m.2
        apply Fin.ext
        apply hsp.inj hnd n m hn hm
        simpa using h
      have hcard : pi.length = (blocks p).card := by
        unfold blocks
        rw [List.toFinset_card_of_nodup hblocks, List.length_map, hpi, List.length_map]
      rw [hcard]
      congr 1
      unfold blocks
      rw [List.prod_toFinset _ hblocks, List.map_map, hpi, List.map_map]
      congr 1
      apply List.map_congr_left
      intro B hB
      simp only [Function.comp, List.map_map]
      congr 1
      funext n
      have hBn : B.Nodup := (List.nodup_flatten.mp ((hsp.perm.nodup_iff).mpr hnd)).1 B hB
      rw [List.prod_toFinset _ hBn]
      rfl
    · intro B hB t
      have hm : photonNumberMoment isZero (isClose 0 0) st (listToFreq B) hbar = .ok (E fun n => (B.map fun j => (n j : ℂ)).prod) := by
        rw [photonNumberMoment_partial N st hs hsym hbar E hE]
        · congr 2; funext n; exact listToFreq_prod B n
        · unfold listToFreq
          rw [List.map_map]
          have : (Prod.fst ∘ fun i => (i, B.count i)) = (id : ℕ → ℕ) := rfl
          rw [this, List.map_id]
          exact List.nodup_dedup B
        · intro q hq
          obtain ⟨x, hx, rfl⟩ := List.mem_map.mp hq
          exact hmemlt B hB x (List.mem_dedup.mp hx)
        · intro q hq
          obtain ⟨x, hx, rfl⟩ := List.mem_map.mp hq
          exact (List.count_pos_iff.mpr (List.mem_dedup.mp hx)).ne'
      rw [hm]; rfl
  rw [List.foldlM_map]
  rw [foldlM_sum' (K := ℂ) (parts' (List.finRange modes.length)) _
    (fun p => (((blocks p).card - 1).factorial : ℂ) * (-1) ^ ((blocks p).card - 1) * ∏ B ∈ blocks p, E fun n => ∏ i ∈ B, (n modes[i] : ℂ))
    (fun p hp t => hkey t p hp _ rfl), zero_add]
  rw [sum_parts (List.finRange modes.length) hnd fun S => ((S.card - 1).factorial : ℂ) * (-1) ^ (S.card - 1) * ∏ B ∈ S, E fun n => ∏ i ∈ B, (n modes[i] : ℂ)]
  congr 1
  rw [huniv]

/-- the empty list of modes raises -/
theorem photonNumberCumulant_nil (st : GState ℝ) (hbar : ℝ) : photonNumberCumulant isZero (isClose 0 0) st [] hbar = .error .indexError := rfl

/-- a concrete enumeration -/
example : partition [1, 2, 3] = .ok [[[1, 2, 3]], [[1], [2, 3]], [[1, 2], [3]], [[2], [1, 3]], [[1], [2], [3]]] := by
  rw [partition_eq _ (by simp)]; rfl

/-- the hypotheses are met by a state with repeated modes -/
example : ∃ v, photonNumberCumulant isZero (isClose 0 0) exampleState [1, 0, 1] 2 = .ok v := by
  obtain ⟨E, hE⟩ := numberStats_exists 2 exampleState.mu exampleState.cov 2
  exact ⟨_, photonNumberCumulant_correct 2 exampleState rfl (by intro i _ j _; simp only [exampleState, eq_comm]) 2 E hE [1, 0, 1] (by simp) (by simp)⟩

end Verif.Props
