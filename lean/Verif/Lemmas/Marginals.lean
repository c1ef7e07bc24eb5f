/-
Lists of modes: first occurrences, sorting, ranks, and the lexicographic enumeration of index tuples.
-/
import Verif.Model.Marginals
import Verif.Spec.Marginals
import Verif.Lemmas.Hermite
import Mathlib.Data.List.GetD

namespace Verif.Lemmas.Marg
open Verif.Model Verif.Model.Fock Verif.Spec

theorem eq_of_sorted_mem {l l' : List ℕ} (h : l.Pairwise (· < ·)) (h' : l'.Pairwise (· < ·)) (hm : ∀ x, x ∈ l ↔ x ∈ l') : l = l' := by
  have hp : l.Perm l' := (List.perm_ext_iff_of_nodup (h.imp fun h => ne_of_lt h) (h'.imp fun h => ne_of_lt h)).mpr hm
  exact hp.eq_of_pairwise' h h'

/-! ### first occurrences -/

theorem fromKeys_aux (ind : List ℕ) : ∀ keys : List ℕ, keys.Nodup →
    (ind.foldl (fun keys x => if x ∈ keys then keys else keys ++ [x]) keys).Nodup ∧
      ∀ x, x ∈ ind.foldl (fun keys x => if x ∈ keys then keys else keys ++ [x]) keys ↔ x ∈ keys ∨ x ∈ ind := by
  induction ind with
  | nil => intro keys h; simp [h]
  | cons a t ih =>
    intro keys h
    rw [List.foldl_cons]
    by_cases ha : a ∈ keys
    · rw [if_pos ha]
      refine ⟨(ih keys h).1, fun x => ?_⟩
      rw [(ih keys h).2, List.mem_cons]
      constructor
      · rintro (h | h)
        · exact .inl h
        · exact .inr (.inr h)
      · rintro (h | rfl | h)
        · exact .inl h
        · exact .inl ha
        · exact .inr h
    · rw [if_neg ha]
      have hk : (keys ++ [a]).Nodup := by
        rw [List.nodup_append]
        refine ⟨h, by simp, fun x hx y hy => ?_⟩
        rw [List.mem_singleton] at hy
        rintro rfl
        exact ha (hy ▸ hx)
      refine ⟨(ih _ hk).1, fun x => ?_⟩
      rw [(ih _ hk).2, List.mem_append, List.mem_singleton, List.mem_cons]
      tauto

theorem fromKeys_nodup (ind : List ℕ) : (fromKeys ind).Nodup := (fromKeys_aux ind [] List.nodup_nil).1

theorem mem_fromKeys (ind : List ℕ) (x : ℕ) : x ∈ fromKeys ind ↔ x ∈ ind := by
  have := (fromKeys_aux ind [] List.nodup_nil).2 x
  unfold fromKeys
  simpa using this

theorem fromKeys_sorted_aux (ind : List ℕ) : ∀ keys : List ℕ, keys.Pairwise (· < ·) → ind.Pairwise (· ≤ ·) → (∀ k ∈ keys, ∀ x ∈ ind, k ≤ x) →
    (ind.foldl (fun keys x => if x ∈ keys then keys else keys ++ [x]) keys).Pairwise (· < ·) := by
  induction ind with
  | nil => intro keys h _ _; simpa using h
  | cons a t ih =>
    intro keys h hs hk
    rw [List.foldl_cons]
    rw [List.pairwise_cons] at hs
    by_cases ha : a ∈ keys
    · rw [if_pos ha]
      exact ih keys h hs.2 fun k hk' x hx => hk k hk' x (List.mem_cons_of_mem _ hx)
    · rw [if_neg ha]
      refine ih _ ?_ hs.2 ?_
      · rw [List.pairwise_append]
        refine ⟨h, by simp, fun x hx y hy => ?_⟩
        rw [List.mem_singleton] at hy
        subst hy
        exact lt_of_le_of_ne (hk x hx y (by simp)) fun e => ha (e ▸ hx)
      · intro k hk' x hx
        rw [List.mem_append, List.mem_singleton] at hk'
        rcases hk' with hk' | rfl
        · exact hk k hk' x (List.mem_cons_of_mem _ hx)
        · exact hs.1 x hx

theorem fromKeys_sorted {ind : List ℕ} (h : ind.Pairwise (· ≤ ·)) : (fromKeys ind).Pairwise (· < ·) :=
  fromKeys_sorted_aux ind [] List.Pairwise.nil h (by simp)

theorem foldl_keys_self (t : List ℕ) : ∀ keys : List ℕ, (keys ++ t).Nodup → t.foldl (fun keys x => if x ∈ keys then keys else keys ++ [x]) keys = keys ++ t := by
  induction t with
  | nil => intro keys _; simp
  | cons a t ih =>
    intro keys h
    rw [List.foldl_cons, if_neg, ih]
    · simp
    · simpa using h
    · intro ha
      rw [List.nodup_append] at h
      exact h.2.2 a ha a (by simp) rfl

theorem foldl_keys_mem (l : List ℕ) (keys : List ℕ) (h : ∀ x ∈ l, x ∈ keys) : l.foldl (fun keys x => if x ∈ keys then keys else keys ++ [x]) keys = keys := by
  induction l with
  | nil => rfl
  | cons a t ih =>
    rw [List.foldl_cons, if_pos (h a (by simp))]
    exact ih fun x hx => h x (List.mem_cons_of_mem _ hx)

theorem fromKeys_pad {t : List ℕ} (h : t.Nodup) (l : List ℕ) (hl : ∀ x ∈ l, x ∈ t) : fromKeys (t ++ l) = t := by
  unfold fromKeys
  rw [List.foldl_append, foldl_keys_self t [] (by simpa using h), List.nil_append, foldl_keys_mem l t hl]

/-! ### ranks -/

/-- the list in increasing order -/
def srt (u : List ℕ) : List ℕ := u.insertionSort (· ≤ ·)

theorem srt_perm (u : List ℕ) : (srt u).Perm u := List.perm_insertionSort _ u

theorem srt_le (u : List ℕ) : (srt u).Pairwise (· ≤ ·) := List.pairwise_insertionSort _ u

theorem srt_lt {u : List ℕ} (h : u.Nodup) : (srt u).Pairwise (· < ·) := by
  have h1 := srt_le u
  have h2 : (srt u).Nodup := (srt_perm u).nodup_iff.mpr h
  exact (List.pairwise_and_iff.mpr ⟨h1, h2⟩).imp fun h => lt_of_le_of_ne h.1 h.2

theorem rank_sorted {l : List ℕ} (h : l.Pairwise (· < ·)) (j : ℕ) (hj : j < l.length) : (l.filter (· < l[j])).length = j := by
  have e : l.filter (· < l[j]) = l.take j := by
    have hsp : l.filter (· < l[j]) = (l.take j).filter (· < l[j]) ++ (l.drop j).filter (· < l[j]) := by
      rw [← List.filter_append, List.take_append_drop]
    rw [hsp]
    have h1 : (l.take j).filter (· < l[j]) = l.take j := by
      rw [List.filter_eq_self]
      intro x hx
      obtain ⟨i, hi, rfl⟩ := List.getElem_of_mem hx
      rw [List.length_take] at hi
      rw [List.getElem_take]
      simpa using List.pairwise_iff_getElem.mp h i j (by omega) hj (by omega)
    have h2 : (l.drop j).filter (· < l[j]) = [] := by
      rw [List.filter_eq_nil_iff]
      intro x hx
      obtain ⟨i, hi, rfl⟩ := List.getElem_of_mem hx
      rw [List.length_drop] at hi
      rw [List.getElem_drop]
      rcases Nat.eq_zero_or_pos i with rfl | hi0
      · simp
      · have := List.pairwise_iff_getElem.mp h j (j + i) hj (by omega) (by omega)
        simp only [decide_eq_true_eq, not_lt]
        exact this.le
    rw [h1, h2, List.append_nil]
  rw [e, List.length_take]
  omega

theorem argsort_perm (u : List ℕ) : (argsort u).Perm (List.range u.length) := List.perm_insertionSort _ _

theorem argsort_map {u : List ℕ} (h : u.Nodup) : (argsort u).map (fun a => u.getD a 0) = srt u := by
  have hu : (List.range u.length).map (fun a => u.getD a 0) = u := by
    apply List.ext_getElem
    · simp
    · intro i h1 h2
      simp [List.getElem?_eq_getElem h2]
  have hp : ((argsort u).map fun a => u.getD a 0).Perm (srt u) :=
    ((argsort_perm u).map _).trans (by rw [hu]; exact (srt_perm u).symm)
  have hs : ((argsort u).map fun a => u.getD a 0).Pairwise (· ≤ ·) := by
    rw [List.pairwise_map]
    haveI : Std.Total fun a b => u.getD a 0 ≤ u.getD b 0 := ⟨fun a b => le_total _ _⟩
    haveI : IsTrans ℕ fun a b => u.getD a 0 ≤ u.getD b 0 := ⟨fun a b c => le_trans⟩
    exact List.pairwise_insertionSort _ _
  exact hp.eq_of_pairwise' hs (srt_le u)

theorem argsort_length (u : List ℕ) : (argsort u).length = u.length := by rw [(argsort_perm u).length_eq, List.length_range]

theorem argsort_nodup (u : List ℕ) : (argsort u).Nodup := (argsort_perm u).nodup_iff.mpr List.nodup_range

/-- position of `b` in the sorting permutation -/
theorem idxOf_argsort {u : List ℕ} (h : u.Nodup) {b : ℕ} (hb : b < u.length) : (argsort u).idxOf b = rankIn u b := by
  have hmem : b ∈ argsort u := (argsort_perm u).mem_iff.mpr (List.mem_range.mpr hb)
  have hj := List.idxOf_lt_length_of_mem hmem
  set j := (argsort u).idxOf b with hjd
  have hget : (argsort u)[j] = b := List.getElem_idxOf hj
  have hjs : j < (srt u).length := by rw [← argsort_map h, List.length_map]; exact hj
  have h1 : (srt u)[j] = u.getD b 0 := by
    have : ((argsort u).map fun a => u.getD a 0)[j]'(by rw [List.length_map]; exact hj) = u.getD b 0 := by rw [List.getElem_map, hget]
    rw [← this]
    congr 1
    exact (argsort_map h).symm
  have h2 := rank_sorted (srt_lt h) j hjs
  rw [h1] at h2
  unfold rankIn
  rw [← h2]
  exact ((srt_perm u).filter _).length_eq

theorem rank_lt {u : List ℕ} (h : u.Nodup) {b : ℕ} (hb : b < u.length) : rankIn u b < u.length := by
  have hmem : b ∈ argsort u := (argsort_perm u).mem_iff.mpr (List.mem_range.mpr hb)
  have := List.idxOf_lt_length_of_mem hmem
  rwa [idxOf_argsort h hb, argsort_length] at this

theorem srt_rank {u : List ℕ} (h : u.Nodup) {b : ℕ} (hb : b < u.length) : (srt u).getD (rankIn u b) 0 = u.getD b 0 := by
  have hmem : b ∈ argsort u := (argsort_perm u).mem_iff.mpr (List.mem_range.mpr hb)
  have hj := List.idxOf_lt_length_of_mem hmem
  rw [← idxOf_argsort h hb, ← argsort_map h, List.getD_eq_getElem _ _ (by rw [List.length_map]; exact hj), List.getElem_map, List.getElem_idxOf hj]

theorem rank_surj {u : List ℕ} (h : u.Nodup) {c : ℕ} (hc : c < u.length) : ∃ b < u.length, rankIn u b = c := by
  have hc' : c < (argsort u).length := by rwa [argsort_length]
  have hb : (argsort u)[c] < u.length := List.mem_range.mp ((argsort_perm u).mem_iff.mp (List.getElem_mem hc'))
  refine ⟨(argsort u)[c], hb, ?_⟩
  rw [← idxOf_argsort h hb]
  exact (argsort_nodup u).idxOf_getElem c hc'

theorem rank_of_sorted {u : List ℕ} (h : u.Pairwise (· < ·)) {b : ℕ} (hb : b < u.length) : rankIn u b = b := by
  unfold rankIn
  rw [List.getD_eq_getElem _ _ hb]
  exact rank_sorted h b hb

theorem transpose_eval {u : List ℕ} (h : u.Nodup) (T : MArr ℝ) (x : ℕ → ℕ) :
    transposeT (argsort u) T ((List.range u.length).map x) = T ((List.range u.length).map fun b => x (rankIn u b)) := by
  unfold transposeT
  rw [argsort_length]
  congr 1
  apply List.map_congr_left
  intro b hb
  rw [List.mem_range] at hb
  have hr := rank_lt h hb
  rw [idxOf_argsort h hb, List.getD_eq_getElem _ _ (by simpa using hr)]
  simp

/-! ### lexicographic order -/

theorem srt_lex (l : List ℕ) : srt l = l ∨ List.Lex (· < ·) (srt l) l := by
  induction l with
  | nil => exact .inl rfl
  | cons a t ih =>
    have hs : srt (a :: t) = (srt t).orderedInsert (· ≤ ·) a := rfl
    rw [hs]
    cases hst : srt t with
    | nil =>
      rw [hst] at ih
      rcases ih with ih | ih
      · left
        rw [← ih]
        rfl
      · right
        exact List.Lex.cons ih
    | cons b s =>
      by_cases hab : a ≤ b
      · rw [show List.orderedInsert (· ≤ ·) a (b :: s) = a :: b :: s from dif_pos hab, ← hst]
        rcases ih with ih | ih
        · left
          rw [ih]
        · right
          exact List.Lex.cons ih
      · rw [List.orderedInsert_of_not_le _ _ hab]
        exact .inr (List.Lex.rel (by omega))

theorem ndindex_lex (shape : List ℕ) : (ndindex shape).Pairwise (List.Lex (· < ·)) := by
  induction shape with
  | nil => simp [ndindex]
  | cons c cs ih =>
    rw [ndindex, List.pairwise_flatMap]
    refine ⟨fun k _ => ?_, ?_⟩
    · rw [List.pairwise_map]
      exact ih.imp fun h => List.Lex.cons h
    · refine List.pairwise_lt_range.imp fun hab x hx y hy => ?_
      rw [List.mem_map] at hx hy
      obtain ⟨x', -, rfl⟩ := hx
      obtain ⟨y', -, rfl⟩ := hy
      exact List.Lex.rel hab

theorem lex_asymm {a b : List ℕ} (h : List.Lex (· < ·) a b) (h' : List.Lex (· < ·) b a) : False := by
  induction h with
  | nil => cases h'
  | cons h ih =>
    cases h' with
    | cons h' => exact ih h'
    | rel h' => exact absurd h' (lt_irrefl _)
  | rel h =>
    cases h' with
    | cons h' => exact absurd h (lt_irrefl _)
    | rel h' => exact absurd h (not_lt.mpr (le_of_lt h'))

/-- the sorted rearrangement of an index tuple comes before it -/
theorem sorted_before {n M : ℕ} {L1 L2 : List (List ℕ)} {ind : List ℕ} (h : ndindex (List.replicate n M) = L1 ++ ind :: L2) (hm : srt ind ∈ ndindex (List.replicate n M))
    (hne : srt ind ≠ ind) : srt ind ∈ L1 := by
  have hlex := (srt_lex ind).resolve_left hne
  rw [h, List.mem_append, List.mem_cons] at hm
  rcases hm with hm | hm | hm
  · exact hm
  · exact absurd hm hne
  · have hp := ndindex_lex (List.replicate n M)
    rw [h, List.pairwise_append, List.pairwise_cons] at hp
    exact absurd hlex fun h' => lex_asymm h' (hp.2.1.1 _ hm)

end Verif.Lemmas.Marg
