/-
The recursive enumeration of set partitions lists every set partition once.
-/
import Verif.Model.Means
import Mathlib.Order.Partition.Finpartition
import Mathlib.Data.List.GetD

set_option linter.unusedSectionVars false
set_option linter.unusedSimpArgs false

namespace Verif.Lemmas.SetPart
open Verif.Model Verif.Model.Means

variable {α : Type} [DecidableEq α]

/-- the enumeration, started at the empty list -/
def parts' : List α → List (List (List α))
  | [] => [[]]
  | a :: l => (parts' l).flatMap (partitionStep a)

omit [DecidableEq α] in
theorem partition_eq (l : List α) (h : l ≠ []) : partition l = .ok (parts' l) := by
  induction l with
  | nil => exact absurd rfl h
  | cons a l ih =>
    cases l with
    | nil => rfl
    | cons b l => rw [partition, ih (by simp)]; rfl

/-- the blocks as a set of sets -/
def blocks (p : List (List α)) : Finset (Finset α) := (p.map List.toFinset).toFinset

theorem mem_blocks (p : List (List α)) (T : Finset α) : T ∈ blocks p ↔ ∃ B ∈ p, B.toFinset = T := by
  unfold blocks; rw [List.mem_toFinset, List.mem_map]

/-- blocks of a list of lists that splits `l` -/
structure Splits (l : List α) (p : List (List α)) : Prop where
  ne : ∀ B ∈ p, B ≠ []
  perm : p.flatten.Perm l

theorem step_mem (a : α) (p q : List (List α)) (h : q ∈ partitionStep a p) :
    (∃ n, ∃ _ : n < p.length, q = p.take n ++ [a :: p.getD n []] ++ p.drop (n + 1)) ∨ q = [a] :: p := by
  unfold partitionStep at h
  rw [List.mem_append, List.mem_map, List.mem_singleton] at h
  rcases h with ⟨n, hn, rfl⟩ | rfl
  · exact Or.inl ⟨n, List.mem_range.mp hn, rfl⟩
  · exact Or.inr rfl

theorem split_at (p : List (List α)) (n : ℕ) (hn : n < p.length) : p = p.take n ++ [p.getD n []] ++ p.drop (n + 1) := by
  rw [List.getD_eq_getElem _ _ hn, List.append_assoc, List.singleton_append, List.getElem_cons_drop, List.take_append_drop]

theorem splits_step (a : α) (l : List α) (p q : List (List α)) (hp : Splits l p) (h : q ∈ partitionStep a p) : Splits (a :: l) q := by
  rcases step_mem a p q h with ⟨n, hn, rfl⟩ | rfl
  · constructor
    · intro B hB
      rw [List.mem_append, List.mem_append, List.mem_singleton] at hB
      rcases hB with (hB | rfl) | hB
      · exact hp.ne B (List.mem_of_mem_take hB)
      · simp
      · exact hp.ne B (List.mem_of_mem_drop hB)
    · refine List.Perm.trans ?_ (hp.perm.cons a)
      conv_rhs => rw [split_at p n hn]
      simp only [List.flatten_append, List.flatten_cons, List.flatten_nil, List.append_nil, List.cons_append, List.append_assoc]
      exact List.perm_middle
  · exact ⟨by intro B hB; rcases List.mem_cons.mp hB with rfl | hB; · simp
              · exact hp.ne B hB, by simpa using hp.perm⟩

theorem splits_all (l : List α) (p : List (List α)) (h : p ∈ parts' l) : Splits l p := by
  induction l generalizing p with
  | nil => simp [parts'] at h; subst h; exact ⟨by simp, by simp⟩
  | cons a l ih =>
    rw [parts', List.mem_flatMap] at h
    obtain ⟨q, hq, h⟩ := h
    exact splits_step a l q p (ih q hq) h

variable {l : List α} {p : List (List α)}

theorem Splits.mem (hp : Splits l p) {B : List α} (hB : B ∈ p) {x : α} (hx : x ∈ B) : x ∈ l :=
  hp.perm.mem_iff.mp (List.mem_flatten.mpr ⟨B, hB, hx⟩)

/-- two blocks at different places are disjoint -/
theorem Splits.disj (hp : Splits l p) (hl : l.Nodup) (n m : ℕ) (hn : n < p.length) (hm : m < p.length) (hnm : n ≠ m) (x : α)
    (h1 : x ∈ p[n]) (h2 : x ∈ p[m]) : False := by
  have hnd : p.flatten.Nodup := (hp.perm.nodup_iff).mpr hl
  have hpw := (List.nodup_flatten.mp hnd).2
  rw [List.pairwise_iff_getElem] at hpw
  rcases Nat.lt_or_gt_of_ne hnm with h | h
  · exact hpw n m hn hm h h1 h2
  · exact hpw m n hm hn h h2 h1

theorem Splits.inj (hp : Splits l p) (hl : l.Nodup) (n m : ℕ) (hn : n < p.length) (hm : m < p.length)
    (h : (p[n]).toFinset = (p[m]).toFinset) : n = m := by
  by_contra hne
  obtain ⟨x, hx⟩ := List.exists_mem_of_ne_nil _ (hp.ne _ (List.getElem_mem hn))
  exact hp.disj hl n m hn hm hne x hx (List.mem_toFinset.mp (h ▸ List.mem_toFinset.mpr hx))

/-- drop `a` from every block -/
def rho (a : α) (S : Finset (Finset α)) : Finset (Finset α) := (S.image fun T => T.erase a).erase ∅

theorem rho_blocks (a : α) (ha : a ∉ l) (hp : Splits l p) (q : List (List α)) (h : q ∈ partitionStep a p) : rho a (blocks q) = blocks p := by
  have hB : ∀ B ∈ p, B.toFinset.erase a = B.toFinset := by
    intro B hB
    apply Finset.erase_eq_of_notMem
    intro h
    exact ha (hp.mem hB (List.mem_toFinset.mp h))
  have hne : ∅ ∉ blocks p := by
    rw [mem_blocks]
    rintro ⟨B, hB, h⟩
    exact hp.ne B hB (List.toFinset_eq_empty_iff B |>.mp h)
  have himg : (blocks q).image (fun T => T.erase a) = ((q.map List.toFinset).map fun T => T.erase a).toFinset := by
    ext T; simp [blocks]
  unfold rho
  rw [himg]
  rcases step_mem a p q h with ⟨n, hn, rfl⟩ | rfl
  · have : ((p.take n ++ [a :: p.getD n []] ++ p.drop (n + 1)).map List.toFinset).map (fun T => T.erase a) = p.map List.toFinset := by
      conv_rhs => rw [split_at p n hn]
      have hmem : p.getD n [] ∈ p := by rw [List.getD_eq_getElem _ _ hn]; exact List.getElem_mem hn
      simp only [List.map_append, List.map_map, List.map_cons, List.map_nil, Function.comp, List.toFinset_cons]
      congr 1
      · congr 1
        · exact List.map_congr_left fun B h => hB B (List.mem_of_mem_take h)
        · rw [Finset.erase_insert]
          intro h
          exact ha (hp.mem hmem (List.mem_toFinset.mp h))
      · exact List.map_congr_left fun B h => hB B (List.mem_of_mem_drop h)
    rw [this]
    exact Finset.erase_eq_of_notMem hne
  · rw [List.map_cons, List.map_cons, List.toFinset_cons, List.map_map]
    have e : p.map ((fun T => T.erase a) ∘ List.toFinset) = p.map List.toFinset := List.map_congr_left fun B h => hB B h
    rw [e]
    have : (([a] : List α).toFinset.erase a) = ∅ := by simp
    rw [this]
    exact Finset.erase_insert hne

/-- the block of `a` -/
def blockOf (a : α) (S : Finset (Finset α)) : Finset (Finset α) := S.filter fun T => a ∈ T

theorem blockOf_insert (a : α) (ha : a ∉ l) (hp : Splits l p) (n : ℕ) (hn : n < p.length) :
    blockOf a (blocks (p.take n ++ [a :: p.getD n []] ++ p.drop (n + 1))) = {insert a (p.getD n []).toFinset} := by
  ext T
  unfold blockOf
  rw [Finset.mem_filter, mem_blocks, Finset.mem_singleton]
  constructor
  · rintro ⟨⟨B, hB, rfl⟩, haT⟩
    rw [List.mem_append, List.mem_append, List.mem_singleton] at hB
    rcases hB with (hB | rfl) | hB
    · exact absurd (hp.mem (List.mem_of_mem_take hB) (List.mem_toFinset.mp haT)) ha
    · rw [List.toFinset_cons]
    · exact absurd (hp.mem (List.mem_of_mem_drop hB) (List.mem_toFinset.mp haT)) ha
  · rintro rfl
    refine ⟨⟨a :: p.getD n [], by simp, by rw [List.toFinset_cons]⟩, by simp⟩

theorem blockOf_single (a : α) (ha : a ∉ l) (hp : Splits l p) : blockOf a (blocks ([a] :: p)) = {{a}} := by
  ext T
  unfold blockOf
  rw [Finset.mem_filter, mem_blocks, Finset.mem_singleton]
  constructor
  · rintro ⟨⟨B, hB, rfl⟩, haT⟩
    rcases List.mem_cons.mp hB with rfl | hB
    · rfl
    · exact absurd (hp.mem hB (List.mem_toFinset.mp haT)) ha
  · rintro rfl
    exact ⟨⟨[a], by simp, rfl⟩, by simp⟩

theorem nodup_step (a : α) (ha : a ∉ l) (hl : l.Nodup) (hp : Splits l p) : ((partitionStep a p).map blocks).Nodup := by
  have hane : ∀ n < p.length, a ∉ (p.getD n []).toFinset := by
    intro n hn h
    rw [List.getD_eq_getElem _ _ hn] at h
    exact ha (hp.mem (List.getElem_mem hn) (List.mem_toFinset.mp h))
  unfold partitionStep
  rw [List.map_append, List.nodup_append]
  refine ⟨?_, by simp, ?_⟩
  · rw [List.map_map]
    apply List.Nodup.map_on _ List.nodup_range
    intro n hn m hm h
    have hn := List.mem_range.mp hn
    have hm := List.mem_range.mp hm
    have h1 := congrArg (blockOf a) h
    simp only [Function.comp] at h1
    rw [blockOf_insert a ha hp n hn, blockOf_insert a ha hp m hm, Finset.singleton_inj] at h1
    have h2 := congrArg (fun T : Finset α => T.erase a) h1
    simp only [Finset.erase_insert (hane n hn), Finset.erase_insert (hane m hm)] at h2
    rw [List.getD_eq_getElem _ _ hn, List.getD_eq_getElem _ _ hm] at h2
    exact hp.inj hl n m hn hm h2
  · intro S hS S' hS' hSS
    rw [List.map_cons, List.map_nil, List.mem_singleton] at hS'
    rw [List.map_map, List.mem_map] at hS
    obtain ⟨n, hn, rfl⟩ := hS
    have hn := List.mem_range.mp hn
    subst hS'
    have h1 := congrArg (blockOf a) hSS
    simp only [Function.comp] at h1
    rw [blockOf_insert a ha hp n hn, blockOf_single a ha hp, Finset.singleton_inj] at h1
    have h2 := congrArg (fun T : Finset α => T.erase a) h1
    simp only [Finset.erase_insert (hane n hn)] at h2
    rw [List.getD_eq_getElem _ _ hn] at h2
    have : (p[n]).toFinset = ∅ := by rw [h2]; simp
    exact hp.ne _ (List.getElem_mem hn) ((List.toFinset_eq_empty_iff _).mp this)

theorem nodup_all (l : List α) (hl : l.Nodup) : ((parts' l).map blocks).Nodup := by
  induction l with
  | nil => simp [parts']
  | cons a l ih =>
    rw [List.nodup_cons] at hl
    have ih := ih hl.2
    rw [parts', List.map_flatMap, List.nodup_flatMap]
    refine ⟨fun p hp => nodup_step a hl.1 hl.2 (splits_all l p hp), ?_⟩
    rw [List.Nodup, List.pairwise_map] at ih
    refine ih.imp_of_mem ?_
    intro p p' hp hp' hne S hS hS'
    obtain ⟨q, hq, rfl⟩ := List.mem_map.mp hS
    obtain ⟨q', hq', e⟩ := List.mem_map.mp hS'
    apply hne
    rw [← rho_blocks a hl.1 (splits_all l p hp) q hq, ← rho_blocks a hl.1 (splits_all l p' hp') q' hq', e]

/-- removing an element from a partition -/
def removePart (a : α) (s : Finset α) (ha : a ∉ s) (Q : Finpartition (insert a s)) : Finpartition s :=
  Finpartition.ofExistsUnique (rho a Q.parts)
    (by
      intro T hT
      unfold rho at hT
      obtain ⟨T', hT', rfl⟩ := Finset.mem_image.mp (Finset.mem_erase.mp hT).2
      intro x hx
      have := Finset.mem_erase.mp hx
      exact (Finset.mem_insert.mp (Q.le hT' this.2)).resolve_left this.1)
    (by
      intro x hx
      have hxa : x ≠ a := fun h => ha (h ▸ hx)
      obtain ⟨T, ⟨hT, hxT⟩, huniq⟩ := Q.existsUnique_mem (Finset.mem_insert_of_mem hx)
      have hxe : x ∈ T.erase a := Finset.mem_erase.mpr ⟨hxa, hxT⟩
      refine ⟨T.erase a, ⟨?_, hxe⟩, ?_⟩
      · unfold rho
        exact Finset.mem_erase.mpr ⟨Finset.ne_empty_of_mem hxe, Finset.mem_image.mpr ⟨T, hT, rfl⟩⟩
      · rintro U ⟨hU, hxU⟩
        unfold rho at hU
        obtain ⟨U', hU', rfl⟩ := Finset.mem_image.mp (Finset.mem_erase.mp hU).2
        rw [huniq U' ⟨hU', (Finset.mem_erase.mp hxU).2⟩])
    (by unfold rho; simp)

theorem complete (l : List α) (hl : l.Nodup) (Q : Finpartition l.toFinset) : ∃ p ∈ parts' l, blocks p = Q.parts := by
  induction l with
  | nil =>
    refine ⟨[], by simp [parts'], ?_⟩
    have : Q.parts = ∅ := by
      rw [Finset.eq_empty_iff_forall_notMem]
      intro T hT
      have h := Q.le hT
      have h2 := Q.ne_bot hT
      simp at h h2
      exact h2 h
    rw [this]; rfl
  | cons a l ih =>
    rw [List.nodup_cons] at hl
    have hs : (a :: l).toFinset = insert a l.toFinset := List.toFinset_cons
    revert Q
    rw [hs]
    intro Q
    have ha : a ∉ l.toFinset := fun h => hl.1 (List.mem_toFinset.mp h)
    obtain ⟨p, hp, hpQ⟩ := ih hl.2 (removePart a l.toFinset ha Q)
    have hsp := splits_all l p hp
    have hpQ : blocks p = rho a Q.parts := hpQ
    obtain ⟨T, ⟨hT, haT⟩, huniq⟩ := Q.existsUnique_mem (Finset.mem_insert_self a l.toFinset)
    have hother : ∀ U ∈ Q.parts, U ≠ T → U.erase a = U := by
      intro U hU hne
      apply Finset.erase_eq_of_notMem
      intro h
      exact hne (huniq U ⟨hU, h⟩)
    have hmem : ∀ U, U ∈ blocks p ↔ (U ∈ Q.parts ∧ U ≠ T) ∨ (U = T.erase a ∧ U ≠ ∅) := by
      intro U
      rw [hpQ]
      unfold rho
      rw [Finset.mem_erase, Finset.mem_image]
      constructor
      · rintro ⟨hne, V, hV, rfl⟩
        by_cases hVT : V = T
        · subst hVT; exact Or.inr ⟨rfl, hne⟩
        · rw [hother V hV hVT]; exact Or.inl ⟨hV, hVT⟩
      · rintro (⟨hU, hne⟩ | ⟨rfl, hne⟩)
        · exact ⟨fun h => by subst h; exact Q.bot_notMem hU, U, hU, hother U hU hne⟩
        · exact ⟨hne, T, hT, rfl⟩
    by_cases hTe : T.erase a = ∅
    · refine ⟨[a] :: p, List.mem_flatMap.mpr ⟨p, hp, by simp [partitionStep]⟩, ?_⟩
      have hTa : T = {a} := by
        have := Finset.insert_erase haT
        rw [hTe] at this
        rw [← this]; rfl
      ext U
      have : U ∈ blocks ([a] :: p) ↔ U = {a} ∨ U ∈ blocks p := by
        rw [mem_blocks, mem_blocks]; simp [eq_comm]
      rw [this, hmem]
      constructor
      · rintro (rfl | ⟨hU, -⟩ | ⟨rfl, h⟩)
        · exact hTa ▸ hT
        · exact hU
        · exact absurd hTe h
      · intro hU
        by_cases h : U = T
        · left; rw [h, hTa]
        · right; left; exact ⟨hU, h⟩
    · have hTm : T.erase a ∈ blocks p := (hmem _).mpr (Or.inr ⟨rfl, hTe⟩)
      obtain ⟨B, hB, hBT⟩ := (mem_blocks p _).mp hTm
      obtain ⟨n, hn, rfl⟩ := List.getElem_of_mem hB
      refine ⟨p.take n ++ [a :: p.getD n []] ++ p.drop (n + 1), List.mem_flatMap.mpr ⟨p, hp, ?_⟩, ?_⟩
      · unfold partitionStep
        exact List.mem_append_left _ (List.mem_map.mpr ⟨n, List.mem_range.mpr hn, rfl⟩)
      · have hTn : insert a (p.getD n []).toFinset = T := by
          rw [List.getD_eq_getElem _ _ hn, hBT]; exact Finset.insert_erase haT
        have hrest : ∀ U, (∃ B ∈ p.take n ++ p.drop (n + 1), B.toFinset = U) ↔ U ∈ blocks p ∧ U ≠ T.erase a := by
          intro U
          constructor
          · rintro ⟨B, hB, rfl⟩
            rw [List.mem_append] at hB
            have hBp : B ∈ p := hB.elim List.mem_of_mem_take List.mem_of_mem_drop
            refine ⟨(mem_blocks _ _).mpr ⟨B, hBp, rfl⟩, ?_⟩
            rw [← hBT]
            intro h
            rcases hB with hB | hB
            · obtain ⟨i, hi, rfl⟩ := List.getElem_of_mem hB
              rw [List.getElem_take] at h
              have := hsp.inj hl.2 i n (by rw [List.length_take] at hi; omega) hn h
              rw [List.length_take] at hi; omega
            · obtain ⟨i, hi, rfl⟩ := List.getElem_of_mem hB
              rw [List.getElem_drop] at h
              have := hsp.inj hl.2 (n + 1 + i) n (by rw [List.length_drop] at hi; omega) hn h
              omega
          · rintro ⟨hU, hne⟩
            obtain ⟨B, hB, rfl⟩ := (mem_blocks _ _).mp hU
            refine ⟨B, ?_, rfl⟩
            rw [split_at p n hn] at hB
            simp only [List.mem_append, List.mem_singleton] at hB ⊢
            rcases hB with (hB | rfl) | hB
            · exact Or.inl hB
            · exfalso; apply hne; rw [← hBT, List.getD_eq_getElem _ _ hn]
            · exact Or.inr hB
        ext U
        have : U ∈ blocks (p.take n ++ [a :: p.getD n []] ++ p.drop (n + 1)) ↔ U = T ∨ ∃ B ∈ p.take n ++ p.drop (n + 1), B.toFinset = U := by
          rw [mem_blocks, ← hTn, ← List.toFinset_cons]
          constructor
          · rintro ⟨B, hB, rfl⟩
            simp only [List.mem_append, List.mem_singleton] at hB
            rcases hB with (hB | rfl) | hB
            · exact Or.inr ⟨B, List.mem_append_left _ hB, rfl⟩
            · exact Or.inl rfl
            · exact Or.inr ⟨B, List.mem_append_right _ hB, rfl⟩
          · rintro (rfl | ⟨B, hB, rfl⟩)
            · exact ⟨a :: p.getD n [], by simp, rfl⟩
            · refine ⟨B, ?_, rfl⟩
              simp only [List.mem_append, List.mem_singleton] at hB ⊢
              tauto
        rw [this, hrest, hmem]
        constructor
        · rintro (rfl | ⟨⟨hU, -⟩ | ⟨rfl, -⟩, h⟩)
          · exact hT
          · exact hU
          · exact absurd rfl h
        · intro hU
          by_cases h : U = T
          · exact Or.inl h
          · refine Or.inr ⟨Or.inl ⟨hU, h⟩, ?_⟩
            rintro rfl
            have hne : (T.erase a).Nonempty := Finset.nonempty_iff_ne_empty.mpr hTe
            obtain ⟨x, hx⟩ := hne
            exact h (Q.eq_of_mem_parts hU hT hx (Finset.mem_erase.mp hx).2)

/-- the blocks that are listed are the parts of a partition -/
theorem sound (hl : l.Nodup) (hp : Splits l p) : ∃ Q : Finpartition l.toFinset, Q.parts = blocks p := by
  refine ⟨Finpartition.ofExistsUnique (blocks p) ?_ ?_ ?_, rfl⟩
  · intro T hT x hx
    obtain ⟨B, hB, rfl⟩ := (mem_blocks _ _).mp hT
    exact List.mem_toFinset.mpr (hp.mem hB (List.mem_toFinset.mp hx))
  · intro x hx
    obtain ⟨B, hB, hxB⟩ := List.mem_flatten.mp (hp.perm.mem_iff.mpr (List.mem_toFinset.mp hx))
    obtain ⟨n, hn, rfl⟩ := List.getElem_of_mem hB
    refine ⟨(p[n]).toFinset, ⟨(mem_blocks _ _).mpr ⟨_, hB, rfl⟩, List.mem_toFinset.mpr hxB⟩, ?_⟩
    rintro U ⟨hU, hxU⟩
    obtain ⟨B', hB', rfl⟩ := (mem_blocks _ _).mp hU
    obtain ⟨m, hm, rfl⟩ := List.getElem_of_mem hB'
    by_contra hne
    exact hp.disj hl n m hn hm (fun h => hne (by subst h; rfl)) x hxB (List.mem_toFinset.mp hxU)
  · rw [mem_blocks]
    rintro ⟨B, hB, h⟩
    exact hp.ne B hB ((List.toFinset_eq_empty_iff B).mp h)

/-- a sum over the listed partitions is a sum over all partitions -/
theorem sum_parts {R : Type} [AddCommMonoid R] (l : List α) (hl : l.Nodup) (f : Finset (Finset α) → R) :
    ((parts' l).map fun p => f (blocks p)).sum = ∑ Q : Finpartition l.toFinset, f Q.parts := by
  have h1 : ((parts' l).map fun p => f (blocks p)) = ((parts' l).map blocks).map f := by rw [List.map_map]; rfl
  rw [h1, ← List.sum_toFinset f (nodup_all l hl)]
  symm
  apply Finset.sum_bij (fun (Q : Finpartition l.toFinset) _ => Q.parts)
  · intro Q _
    obtain ⟨p, hp, e⟩ := complete l hl Q
    exact List.mem_toFinset.mpr (List.mem_map.mpr ⟨p, hp, e⟩)
  · intro Q _ Q' _ h; exact Finpartition.ext h
  · intro S hS
    obtain ⟨p, hp, rfl⟩ := List.mem_map.mp (List.mem_toFinset.mp hS)
    obtain ⟨Q, hQ⟩ := sound hl (splits_all l p hp)
    exact ⟨Q, Finset.mem_univ _, hQ⟩
  · intro Q _; rfl

omit [DecidableEq α] in
theorem parts'_map {β : Type} (f : α → β) (l : List α) : parts' (l.map f) = (parts' l).map (List.map (List.map f)) := by
  induction l with
  | nil => rfl
  | cons a l ih =>
    rw [List.map_cons, parts', ih, parts', List.map_flatMap, List.flatMap_map]
    apply List.flatMap_congr
    intro p _
    unfold partitionStep
    simp only [List.length_map, List.map_append, List.map_map, List.map_cons, List.map_nil]
    congr 1
    apply List.map_congr_left
    intro n hn
    have hn := List.mem_range.mp hn
    simp only [Function.comp, List.map_append, List.map_take, List.map_drop, List.map_cons, List.map_nil]
    rw [List.getD_eq_getElem _ _ (by simpa using hn), List.getD_eq_getElem _ _ hn, List.getElem_map]

end Verif.Lemmas.SetPart
