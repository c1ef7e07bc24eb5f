/- Lemmas for the multidimensional Hermite arrays. -/
import Verif.Model.Hermite
import Verif.Lemmas.LhafSpec
import Verif.Props.HafnianHelpers
import Mathlib.Analysis.Calculus.Deriv.Mul
import Mathlib.Analysis.Calculus.Deriv.Add
import Mathlib.Data.List.Sort

namespace Verif.Model

set_option linter.unusedSectionVars false
set_option linter.unusedSimpArgs false

open Spec (repeatedIndices)
open Props (repeatedIndices_count repeatedIndices_sorted)

/-! ### ndindex -/

abbrev le2 (a b : List ℕ) : Prop := List.Forall₂ (· ≤ ·) a b

theorem mem_ndindex {shape k : List ℕ} : k ∈ ndindex shape ↔ List.Forall₂ (· < ·) k shape := by
  induction shape generalizing k with
  | nil => simp [ndindex]
  | cons c cs ih =>
    simp only [ndindex, List.mem_flatMap, List.mem_range, List.mem_map]
    constructor
    · rintro ⟨x, hx, t, ht, rfl⟩
      exact .cons hx (ih.mp ht)
    · intro h
      cases h with
      | cons h1 h2 => exact ⟨_, h1, _, ih.mpr h2, rfl⟩

theorem ndindex_pairwise (shape : List ℕ) : (ndindex shape).Pairwise fun a b => ¬ le2 b a := by
  induction shape with
  | nil => simp [ndindex]
  | cons c cs ih =>
    simp only [ndindex]
    rw [List.pairwise_flatMap]
    refine ⟨?_, ?_⟩
    · intro k _
      rw [List.pairwise_map]
      refine ih.imp ?_
      intro a b h h2
      cases h2 with
      | cons _ h3 => exact h h3
    · refine List.pairwise_lt_range.imp ?_
      intro a b hab x hx z hz h
      obtain ⟨x', _, rfl⟩ := List.mem_map.mp hx
      obtain ⟨z', _, rfl⟩ := List.mem_map.mp hz
      cases h with
      | cons h1 _ => omega

theorem ndindex_head (shape : List ℕ) (h : ∀ c ∈ shape, c ≠ 0) :
    ∃ rest, ndindex shape = List.replicate shape.length 0 :: rest := by
  induction shape with
  | nil => exact ⟨[], rfl⟩
  | cons c cs ih =>
    obtain ⟨rest, hr⟩ := ih fun c hc => h c (by simp [hc])
    obtain ⟨c', rfl⟩ := Nat.exists_eq_succ_of_ne_zero (h c (by simp))
    simp only [ndindex, List.range_succ_eq_map, List.flatMap_cons, hr, List.map_cons]
    exact ⟨_, rfl⟩

/-! ### filling an array in an order compatible with its dependencies -/

theorem fill_spec {S V : Type*} (read : S → List ℕ → V) (step : S → List ℕ → S) (s0 : S) (spec : List ℕ → V)
    (idx0 : List ℕ) (rest : List (List ℕ)) (hpw : (idx0 :: rest).Pairwise fun a b => ¬ le2 b a)
    (h0 : read s0 idx0 = spec idx0)
    (hoff : ∀ s idx k, k ≠ idx → read (step s idx) k = read s k)
    (hstep : ∀ s idx, idx ∈ rest → read s idx = read s0 idx →
      (∀ k ∈ idx0 :: rest, le2 k idx → k ≠ idx → read s k = spec k) → read (step s idx) idx = spec idx) :
    ∀ k ∈ idx0 :: rest, read (rest.foldl step s0) k = spec k := by
  have main : ∀ (post pre : List (List ℕ)) (s : S), idx0 :: rest = pre ++ post → (∀ x ∈ post, x ∈ rest) →
      (∀ k ∈ pre, read s k = spec k) → (∀ k ∈ post, read s k = read s0 k) →
      ∀ k ∈ idx0 :: rest, read (post.foldl step s) k = spec k := by
    intro post
    induction post with
    | nil => intro pre s he _ hp _ k hk; rw [he, List.append_nil] at hk; exact hp k hk
    | cons idx post ih =>
      intro pre s he hpost hp hq
      have hpw' := hpw
      rw [he, List.pairwise_append] at hpw'
      have hnotpost : idx ∉ post := fun hm =>
        (List.pairwise_cons.mp hpw'.2.1).1 idx hm (List.forall₂_refl idx)
      have hnotpre : idx ∉ pre := fun hm => hpw'.2.2 idx hm idx (by simp) (List.forall₂_refl idx)
      rw [List.foldl_cons]
      apply ih (pre ++ [idx]) (step s idx) (by rw [he]; simp) (fun x hx => hpost x (by simp [hx]))
      · intro k hk
        rcases List.mem_append.mp hk with hk | hk
        · rw [hoff _ _ _ (fun h => hnotpre (by first | exact (h ▸ hk) | (rw [← h]; exact hk) | (rw [h]; exact hk)))]; exact hp k hk
        · rw [List.mem_singleton] at hk
          subst hk
          apply hstep s k (hpost k (by simp)) (hq k (by simp))
          intro j hj hle hne
          rw [he] at hj
          rcases List.mem_append.mp hj with hj | hj
          · exact hp j hj
          · exfalso
            rcases List.mem_cons.mp hj with rfl | hj
            · exact hne rfl
            · exact (List.pairwise_cons.mp hpw'.2.1).1 j hj hle
      · intro k hk
        rw [hoff _ _ _ (fun h => hnotpost (by first | exact (h ▸ hk) | (rw [← h]; exact hk) | (rw [h]; exact hk)))]
        exact hq k (by simp [hk])
  exact main rest [idx0] s0 rfl (fun x hx => hx) (by simpa using h0) (by simp)

/-! ### index arithmetic -/

theorem decAt_length (t : List ℕ) (i : ℕ) : (decAt t i).length = t.length := by simp [decAt]

theorem decAt_getD (t : List ℕ) (i j : ℕ) : (decAt t i).getD j 0 = t.getD j 0 - if i = j then 1 else 0 := by
  unfold decAt
  by_cases hi : i < t.length
  · by_cases hij : i = j
    · subst hij; simp [List.getD_eq_getElem?_getD, hi]
    · simp [List.getD_eq_getElem?_getD, List.getElem?_set_ne hij, hij]
  · rw [List.set_eq_of_length_le (by omega)]
    by_cases hij : i = j
    · subst hij; rw [List.getD_eq_default _ _ (by omega)]; simp
    · simp [hij]

theorem le2_iff {a b : List ℕ} : le2 a b ↔ a.length = b.length ∧ ∀ i, a.getD i 0 ≤ b.getD i 0 := by
  show List.Forall₂ _ a b ↔ _
  rw [List.forall₂_iff_get]
  constructor
  · rintro ⟨h1, h2⟩
    refine ⟨h1, fun i => ?_⟩
    by_cases hi : i < a.length
    · rw [List.getD_eq_getElem _ _ hi, List.getD_eq_getElem _ _ (h1 ▸ hi)]; exact h2 i hi (h1 ▸ hi)
    · rw [List.getD_eq_default _ _ (by omega)]; exact Nat.zero_le _
  · rintro ⟨h1, h2⟩
    refine ⟨h1, fun i hi hi' => ?_⟩
    have := h2 i
    rw [List.getD_eq_getElem _ _ hi, List.getD_eq_getElem _ _ hi'] at this
    exact this

theorem decAt_le (t : List ℕ) (i : ℕ) : le2 (decAt t i) t :=
  le2_iff.mpr ⟨decAt_length t i, fun j => by rw [decAt_getD]; omega⟩

theorem decAt_ne (t : List ℕ) (i : ℕ) (h : 0 < t.getD i 0) : decAt t i ≠ t := by
  intro he
  have := congrArg (fun l => l.getD i 0) he
  simp only [decAt_getD, if_true] at this
  omega

theorem mem_ndindex_of_le {shape k k' : List ℕ} (h : k ∈ ndindex shape) (hle : le2 k' k) : k' ∈ ndindex shape := by
  rw [mem_ndindex] at h ⊢
  induction hle generalizing shape with
  | nil => exact h
  | cons h1 _ ih =>
    cases h with
    | cons h2 h3 => exact .cons (lt_of_le_of_lt h1 h2) (ih h3)

theorem firstPos_spec {idx : List ℕ} (h : ∃ i, 0 < idx.getD i 0) :
    firstPos idx < idx.length ∧ 0 < idx.getD (firstPos idx) 0 ∧ ∀ j < firstPos idx, idx.getD j 0 = 0 := by
  have hlt : idx.findIdx (· > 0) < idx.length := by
    rw [List.findIdx_lt_length]
    obtain ⟨i, hi⟩ := h
    have hil : i < idx.length := by
      by_contra hc; rw [List.getD_eq_default _ _ (by omega)] at hi; omega
    rw [List.getD_eq_getElem _ _ hil] at hi
    exact ⟨idx[i], List.getElem_mem hil, by simpa using hi⟩
  have e : firstPos idx = idx.findIdx (· > 0) := by unfold firstPos; rw [if_pos hlt]
  rw [e]
  refine ⟨hlt, ?_, ?_⟩
  · rw [List.getD_eq_getElem _ _ hlt]
    have := List.findIdx_getElem (w := hlt)
    simpa using this
  · intro j hj
    rw [List.getD_eq_getElem _ _ (by omega)]
    have := List.not_of_lt_findIdx hj
    simpa using this

theorem sorted_perm_eq {l l' : List ℕ} (h : l.Perm l') (hl : l.Pairwise (· ≤ ·)) (hl' : l'.Pairwise (· ≤ ·)) : l = l' :=
  h.eq_of_pairwise (fun a b _ _ h1 h2 => le_antisymm h1 h2) hl hl'

theorem rep_eq_of_count {k : List ℕ} {l : List ℕ} (hl : l.Pairwise (· ≤ ·)) (hc : ∀ i, l.count i = k.getD i 0) :
    l = repeatedIndices k := by
  apply sorted_perm_eq _ hl (repeatedIndices_sorted k)
  rw [List.perm_iff_count]
  intro i; rw [hc, repeatedIndices_count]

theorem rep_cons_firstPos {idx : List ℕ} (h : ∃ i, 0 < idx.getD i 0) :
    repeatedIndices idx = firstPos idx :: repeatedIndices (decAt idx (firstPos idx)) := by
  obtain ⟨h1, h2, h3⟩ := firstPos_spec h
  symm
  apply rep_eq_of_count
  · rw [List.pairwise_cons]
    refine ⟨?_, repeatedIndices_sorted _⟩
    intro a ha
    by_contra hlt
    have hc := List.count_pos_iff.mpr ha
    rw [repeatedIndices_count, decAt_getD, h3 a (by omega)] at hc
    omega
  · intro i
    rw [List.count_cons, repeatedIndices_count, decAt_getD]
    by_cases hi : firstPos idx = i
    · rw [← hi]; simp only [beq_self_eq_true, if_true]; omega
    · simp [hi]

theorem rep_erase (k : List ℕ) (j : ℕ) : (repeatedIndices k).erase j = repeatedIndices (decAt k j) := by
  apply rep_eq_of_count
  · exact (repeatedIndices_sorted k).sublist List.erase_sublist
  · intro i
    rw [List.count_erase, repeatedIndices_count, decAt_getD]
    by_cases h : j = i <;> simp [h]

theorem rep_replicate_zero (n : ℕ) : repeatedIndices (List.replicate n 0) = [] := by
  symm
  apply rep_eq_of_count List.Pairwise.nil
  intro i
  simp [List.getD_eq_getElem?_getD, List.getElem?_replicate]
  split <;> simp

/-! ### erasure sums over repeated indices -/

section ring
variable {K : Type} [Field K]

theorem eSum_congr_sub {ι : Type*} {F G : ι → List ι → K} {l : List ι}
    (h : ∀ y ys, (y :: ys).Perm l → ys.Sublist l → F y ys = G y ys) : eSum F l = eSum G l := by
  induction l generalizing F G with
  | nil => rfl
  | cons x xs ih =>
    rw [eSum_cons, eSum_cons, h x xs (List.Perm.refl _) (List.sublist_cons_self _ _)]
    congr 1
    exact ih fun y ys hy hs => h y (x :: ys) ((List.Perm.swap x y ys).trans (hy.cons x)) (hs.cons_cons x)

theorem eSum_count_on {F : ℕ → List ℕ → K} (hF : ∀ y ys ys', ys.Perm ys' → F y ys = F y ys') (l : List ℕ) (s : Finset ℕ)
    (hs : ∀ x ∈ l, x ∈ s) : eSum F l = ∑ j ∈ s, (l.count j : K) * F j (l.erase j) := by
  induction l generalizing F with
  | nil => simp
  | cons x xs ih =>
    have hx : x ∈ s := hs x (by simp)
    rw [eSum_cons, ih (fun y ys ys' h => hF y _ _ (h.cons x)) (fun z hz => hs z (by simp [hz]))]
    rw [← Finset.sum_erase_add _ _ hx,
      ← Finset.sum_erase_add (a := x) _ (fun j => ((x :: xs).count j : K) * F j ((x :: xs).erase j)) hx]
    have h1 : ∑ j ∈ s.erase x, (xs.count j : K) * F j (x :: xs.erase j)
        = ∑ j ∈ s.erase x, ((x :: xs).count j : K) * F j ((x :: xs).erase j) := by
      refine Finset.sum_congr rfl fun j hj => ?_
      have hj : j ≠ x := (Finset.mem_erase.mp hj).1
      rw [List.count_cons_of_ne hj.symm, List.erase_cons_tail (by simpa using hj.symm)]
    rw [h1]
    have h2 : F x xs + (xs.count x : K) * F x (x :: xs.erase x)
        = ((x :: xs).count x : K) * F x ((x :: xs).erase x) := by
      rw [List.count_cons_self, List.erase_cons_head]
      by_cases hx : x ∈ xs
      · rw [hF x _ _ (List.perm_cons_erase hx).symm]; push_cast; ring
      · rw [List.count_eq_zero_of_not_mem hx]; push_cast; ring
    rw [← h2]; ring

/-- erasure sum over the repeated indices of `k`, without any invariance assumption on the summand -/
theorem eSum_rep (F : ℕ → List ℕ → K) (k : List ℕ) :
    eSum F (repeatedIndices k) = ∑ j ∈ Finset.range k.length, (k.getD j 0 : K) * F j (repeatedIndices (decAt k j)) := by
  have hs := repeatedIndices_sorted k
  have h1 : eSum F (repeatedIndices k) = eSum (fun y ys => F y (ys.insertionSort (· ≤ ·))) (repeatedIndices k) := by
    apply eSum_congr_sub
    intro y ys _ hsub
    rw [List.Pairwise.insertionSort_eq (hs.sublist hsub)]
  rw [h1, eSum_count_on (s := Finset.range k.length)]
  · refine Finset.sum_congr rfl fun j _ => ?_
    rw [repeatedIndices_count, rep_erase, List.Pairwise.insertionSort_eq (repeatedIndices_sorted _)]
  · intro y ys ys' hp
    congr 1
    apply sorted_perm_eq _ (List.pairwise_insertionSort _ _) (List.pairwise_insertionSort _ _)
    exact (List.perm_insertionSort _ _).trans (hp.trans (List.perm_insertionSort _ _).symm)
  · intro x hx
    exact Finset.mem_range.mpr (repeatedIndices_lt hx)

theorem foldl_sub {α : Type*} (l : List α) (f : α → K) (u : K) :
    l.foldl (fun u a => u - f a) u = u - (l.map f).sum := by
  induction l generalizing u with
  | nil => simp
  | cons a l ih => rw [List.foldl_cons, ih, List.map_cons, List.sum_cons]; ring

theorem removeAll_sum (k : List ℕ) (f : ℕ → List ℕ → K) (hf : ∀ j, k.getD j 0 = 0 → f j (decAt k j) = 0) :
    ((removeAll k).map fun lk => f lk.1 lk.2).sum = ∑ j ∈ Finset.range k.length, f j (decAt k j) := by
  unfold removeAll
  rw [List.map_map]
  have : ∀ m, ((((List.range m).filter fun i => decide (k.getD i 0 > 0))).map
      ((fun lk : ℕ × List ℕ => f lk.1 lk.2) ∘ fun i => (i, decAt k i))).sum = ∑ j ∈ Finset.range m, f j (decAt k j) := by
    intro m
    induction m with
    | zero => simp
    | succ m ih =>
      rw [List.range_succ, List.filter_append, List.map_append, List.sum_append, ih, Finset.sum_range_succ]
      congr 1
      by_cases h : 0 < k.getD m 0
      · rw [List.filter_cons_of_pos (by simpa using h)]
        simp
      · rw [List.filter_cons_of_neg (by simpa using h), hf m (by omega)]
        simp
  exact this _

/-- the intended value of the (unnormalised) Hermite array with seed `1` -/
def herm (R : ℕ → ℕ → K) (y : ℕ → K) (k : List ℕ) : K := lh y (fun i j => -R i j) (repeatedIndices k)

theorem herm_rec (R : ℕ → ℕ → K) (y : ℕ → K) {idx : List ℕ} (h : ∃ i, 0 < idx.getD i 0) :
    herm R y idx = y (firstPos idx) * herm R y (decAt idx (firstPos idx))
      - ((removeAll (decAt idx (firstPos idx))).map fun lk =>
        ((decAt idx (firstPos idx)).getD lk.1 0 : K) * R (firstPos idx) lk.1 * herm R y lk.2).sum := by
  rw [removeAll_sum _ (fun l kl => ((decAt idx (firstPos idx)).getD l 0 : K) * R (firstPos idx) l * herm R y kl)]
  · unfold herm
    rw [rep_cons_firstPos h, lh_cons, eSum_rep, sub_eq_add_neg, ← Finset.sum_neg_distrib]
    congr 1
    refine Finset.sum_congr rfl fun j _ => ?_
    ring
  · intro j hj; rw [hj]; simp

theorem nonzero_of_mem_rest {shape : List ℕ} {rest idx} (h : ndindex shape = List.replicate shape.length 0 :: rest)
    (hi : idx ∈ rest) : ∃ i, 0 < idx.getD i 0 := by
  by_contra hc
  push Not at hc
  have hm : idx ∈ ndindex shape := by rw [h]; simp [hi]
  have hl := (mem_ndindex.mp hm).length_eq
  have hpw := ndindex_pairwise shape
  rw [h, List.pairwise_cons] at hpw
  apply hpw.1 idx hi
  rw [le2_iff]
  refine ⟨by simp [hl], fun i => ?_⟩
  have := hc i
  omega

theorem herm_zero (R : ℕ → ℕ → K) (y : ℕ → K) (n : ℕ) : herm R y (List.replicate n 0) = 1 := by
  rw [herm, rep_replicate_zero, lh_nil]

/-- generic correctness of the four fill loops -/
theorem deps_ok {shape : List ℕ} {rest idx} (h : ndindex shape = List.replicate shape.length 0 :: rest) (hi : idx ∈ rest)
    {V : Type*} {rd : List ℕ → V} {spec : List ℕ → V}
    (hdep : ∀ k ∈ List.replicate shape.length 0 :: rest, le2 k idx → k ≠ idx → rd k = spec k) :
    rd (decAt idx (firstPos idx)) = spec (decAt idx (firstPos idx)) ∧
    ∀ lk ∈ removeAll (decAt idx (firstPos idx)), rd lk.2 = spec lk.2 := by
  have hnz := nonzero_of_mem_rest h hi
  obtain ⟨h1, h2, h3⟩ := firstPos_spec hnz
  have hm : idx ∈ ndindex shape := by rw [h]; simp [hi]
  have hle := decAt_le idx (firstPos idx)
  refine ⟨hdep _ (by rw [← h]; exact mem_ndindex_of_le hm hle) hle (decAt_ne _ _ h2), ?_⟩
  intro lk hlk
  obtain ⟨j, hj, rfl⟩ := List.mem_map.mp hlk
  have hle2 : le2 (decAt (decAt idx (firstPos idx)) j) idx := by
    rw [le2_iff]
    refine ⟨by simp [decAt_length], fun i => ?_⟩
    rw [decAt_getD, decAt_getD]; omega
  refine hdep _ (by rw [← h]; exact mem_ndindex_of_le hm hle2) hle2 ?_
  intro he
  have := congrArg (fun l => l.getD (firstPos idx) 0) he
  simp only [decAt_getD, if_true] at this
  omega

theorem hermiteFill_eq (R : ℕ → ℕ → K) (y : ℕ → K) (shape : List ℕ) (hs : ∀ c ∈ shape, c ≠ 0) (C : K) (G0 : MArr K)
    (h0 : G0 (List.replicate shape.length 0) = C) :
    ∀ k ∈ ndindex shape, hermiteFill R y shape G0 k = C * herm R y k := by
  obtain ⟨rest, hr⟩ := ndindex_head shape hs
  unfold hermiteFill
  rw [hr, List.drop_one, List.tail_cons]
  refine fill_spec (fun G k => G k) (hermiteStep R y) G0 (fun k => C * herm R y k) _ rest (hr ▸ ndindex_pairwise shape) ?_ ?_ ?_
  · simp only [h0, herm_zero, mul_one]
  · intro G idx k hk; simp [hermiteStep, hk]
  · intro G idx hidx _ hdep
    obtain ⟨d1, d2⟩ := deps_ok hr hidx hdep
    simp only [hermiteStep, Function.update_self]
    rw [foldl_sub, herm_rec R y (nonzero_of_mem_rest hr hidx), d1, mul_sub, ← List.sum_map_mul_left]
    congr 1
    · ring
    · congr 1
      apply List.map_congr_left
      intro lk hlk
      rw [d2 lk hlk]; ring

/-! ### renormalised arrays -/

/-- `sqrt(prod k_i!)` from a square-root function -/
def sqFact (sq : ℕ → K) (k : List ℕ) : K := (k.map fun m => ((List.range m).map fun i => sq (i + 1)).prod).prod

theorem sqFact_decAt (sq : ℕ → K) (k : List ℕ) (i : ℕ) (h : 0 < k.getD i 0) :
    sqFact sq k = sq (k.getD i 0) * sqFact sq (decAt k i) := by
  unfold sqFact decAt
  induction k generalizing i with
  | nil => simp at h
  | cons x xs ih =>
    cases i with
    | zero =>
      simp only [List.getD_cons_zero] at h ⊢
      obtain ⟨x, rfl⟩ := Nat.exists_eq_succ_of_ne_zero (by omega : x ≠ 0)
      simp only [List.set_cons_zero, List.map_cons, List.prod_cons, Nat.succ_eq_add_one, Nat.add_sub_cancel, List.range_succ,
        List.map_append, List.prod_append, List.map_nil, List.prod_nil, mul_one]
      ring
    | succ i =>
      simp only [List.getD_cons_succ] at h ⊢
      simp only [List.set_cons_succ, List.map_cons, List.prod_cons]
      rw [ih i h]; ring

theorem sqFact_ne_zero (sq : ℕ → K) (hsq : ∀ m, 0 < m → sq m ≠ 0) (k : List ℕ) : sqFact sq k ≠ 0 := by
  unfold sqFact
  rw [Ne, List.prod_eq_zero_iff]
  intro h
  obtain ⟨m, _, hm⟩ := List.mem_map.mp h
  rw [List.prod_eq_zero_iff] at hm
  obtain ⟨i, _, hi⟩ := List.mem_map.mp hm
  exact hsq (i + 1) (by omega) hi

theorem sqFact_zero (sq : ℕ → K) (n : ℕ) : sqFact sq (List.replicate n 0) = 1 := by
  unfold sqFact
  simp

theorem hermiteFillRenorm_eq (sq : ℕ → K) (hsq : ∀ m, 0 < m → sq m ≠ 0) (hsq2 : ∀ m, sq m * sq m = m)
    (R : ℕ → ℕ → K) (y : ℕ → K) (shape : List ℕ) (hs : ∀ c ∈ shape, c ≠ 0) (C : K) (G0 : MArr K)
    (h0 : G0 (List.replicate shape.length 0) = C) :
    ∀ k ∈ ndindex shape, hermiteFillRenorm sq R y shape G0 k = C * herm R y k / sqFact sq k := by
  obtain ⟨rest, hr⟩ := ndindex_head shape hs
  unfold hermiteFillRenorm
  rw [hr, List.drop_one, List.tail_cons]
  refine fill_spec (fun G k => G k) (hermiteStepRenorm sq R y) G0 (fun k => C * herm R y k / sqFact sq k) _ rest
    (hr ▸ ndindex_pairwise shape) ?_ ?_ ?_
  · simp only [h0, herm_zero, mul_one, sqFact_zero, div_one]
  · intro G idx k hk; simp [hermiteStepRenorm, hk]
  · intro G idx hidx _ hdep
    obtain ⟨d1, d2⟩ := deps_ok hr hidx hdep
    have hnz := nonzero_of_mem_rest hr hidx
    obtain ⟨f1, f2, f3⟩ := firstPos_spec hnz
    simp only [hermiteStepRenorm, Function.update_self]
    rw [foldl_sub, herm_rec R y hnz, d1, sqFact_decAt sq idx _ f2]
    have hS := sqFact_ne_zero sq hsq (decAt idx (firstPos idx))
    have hq := hsq _ f2
    set S := sqFact sq (decAt idx (firstPos idx)) with hSdef
    have hterm : ((removeAll (decAt idx (firstPos idx))).map fun lk =>
        sq ((decAt idx (firstPos idx)).getD lk.1 0) * R (firstPos idx) lk.1 * G lk.2).sum
        = (C / S) * ((removeAll (decAt idx (firstPos idx))).map fun lk =>
        ((decAt idx (firstPos idx)).getD lk.1 0 : K) * R (firstPos idx) lk.1 * herm R y lk.2).sum := by
      rw [← List.sum_map_mul_left]
      congr 1
      apply List.map_congr_left
      intro lk hlk
      rw [d2 lk hlk]
      obtain ⟨j, hj, rfl⟩ := List.mem_map.mp hlk
      have hj' : 0 < (decAt idx (firstPos idx)).getD j 0 := by simpa using (List.mem_filter.mp hj).2
      have e := sqFact_decAt sq (decAt idx (firstPos idx)) j hj'
      have hS2 := sqFact_ne_zero sq hsq (decAt (decAt idx (firstPos idx)) j)
      have hqj := hsq _ hj'
      rw [hSdef, e, ← hsq2 ((decAt idx (firstPos idx)).getD j 0)]
      field_simp
    rw [hterm]
    field_simp

/-! ### interferometer -/

/-- number of photons in the first half minus the second half vanishes -/
def balanced (dim : ℕ) (idx : List ℕ) : Prop :=
  ((List.range (dim / 2)).map fun ii => idx.getD ii 0).sum
    = ((List.range' (dim / 2) (dim - dim / 2)).map fun ii => idx.getD ii 0).sum

theorem lh_unbalanced (A : ℕ → ℕ → K) (p : ℕ → Bool) (hA : ∀ i j, p i = p j → A i j = 0) (l : List ℕ)
    (h : l.countP p ≠ l.countP (fun i => !p i)) : lh (fun _ => 0) A l = 0 := by
  induction hn : l.length using Nat.strong_induction_on generalizing l with
  | _ n ih =>
    cases l with
    | nil => simp at h
    | cons x xs =>
      simp only [List.length_cons] at hn
      rw [lh_cons, zero_mul, zero_add]
      refine (eSum_congr' (G := fun _ _ => 0) ?_).trans (eSum_zero xs)
      intro y ys hy
      by_cases hp : p x = p y
      · rw [hA x y hp, zero_mul]
      · rw [ih ys.length (by have := hy.length_eq; simp at this; omega) ys ?_ rfl, mul_zero]
        intro hc
        apply h
        have h1 := hy.countP_eq p
        have h2 := hy.countP_eq (fun i => !p i)
        rw [List.countP_cons] at h1 h2 ⊢
        rw [List.countP_cons]
        cases hx : p x <;> cases hy' : p y <;> simp_all <;> omega

theorem herm_unbalanced (n : ℕ) (R : ℕ → ℕ → K) (idx : List ℕ) (hlen : idx.length = 2 * n)
    (hR : ∀ i j, i < 2 * n → j < 2 * n → (i < n ↔ j < n) → R i j = 0) (h : ¬ balanced (2 * n) idx) :
    herm R (fun _ => 0) idx = 0 := by
  unfold herm
  have hc : lh (fun _ => (0 : K)) (fun i j => -R i j) (repeatedIndices idx)
      = lh (fun _ => 0) (fun i j => if i < 2 * n ∧ j < 2 * n then -R i j else 0) (repeatedIndices idx) := by
    refine lh_congr (fun _ _ => rfl) fun i hi j hj => ?_
    have h1 := repeatedIndices_lt hi
    have h2 := repeatedIndices_lt hj
    rw [if_pos ⟨by omega, by omega⟩]
  rw [hc]
  apply lh_unbalanced _ (fun i => decide (i < n))
  · intro i j hij
    split
    · rename_i h; rw [hR i j h.1 h.2 (by simpa using hij), neg_zero]
    · rfl
  · intro he
    apply h
    unfold balanced
    rw [show 2 * n / 2 = n by omega, show 2 * n - n = n by omega]
    have key : ∀ (q : ℕ → Bool), (repeatedIndices idx).countP q
        = ((List.range (2 * n)).map fun i => if q i then idx.getD i 0 else 0).sum := by
      intro q
      rw [repeatedIndices, List.countP_flatMap, hlen]
      congr 1
      apply List.map_congr_left
      intro i _
      rw [Function.comp, List.countP_replicate]
    rw [key, key] at he
    have hsplit : List.range (2 * n) = List.range n ++ List.range' n n := by
      rw [List.range_eq_range', List.range_eq_range']
      have := List.range'_append_1 (s := 0) (m := n) (n := n)
      rw [Nat.zero_add] at this
      rw [this]; congr 1; omega
    rw [hsplit] at he
    simp only [List.map_append, List.sum_append] at he
    have a1 : ((List.range n).map fun i => if decide (i < n) = true then idx.getD i 0 else 0)
        = (List.range n).map fun ii => idx.getD ii 0 := by
      apply List.map_congr_left; intro i hi; simp [List.mem_range.mp hi]
    have a2 : ((List.range' n n).map fun i => if decide (i < n) = true then idx.getD i 0 else 0) = (List.range' n n).map fun _ => 0 := by
      apply List.map_congr_left; intro i hi
      have := (List.mem_range'_1.mp hi).1
      simp [this]
    have a3 : ((List.range n).map fun i => if (!decide (i < n)) = true then idx.getD i 0 else 0) = (List.range n).map fun _ => 0 := by
      apply List.map_congr_left; intro i hi; simp [List.mem_range.mp hi]
    have a4 : ((List.range' n n).map fun i => if (!decide (i < n)) = true then idx.getD i 0 else 0)
        = (List.range' n n).map fun ii => idx.getD ii 0 := by
      apply List.map_congr_left; intro i hi
      have := (List.mem_range'_1.mp hi).1
      simp [this]
    rw [a1, a2, a3, a4] at he
    simpa using he

theorem interferometerFill_eq (n : ℕ) (R : ℕ → ℕ → K) (shape : List ℕ) (hlen : shape.length = 2 * n) (hs : ∀ c ∈ shape, c ≠ 0)
    (hR : ∀ i j, i < 2 * n → j < 2 * n → (i < n ↔ j < n) → R i j = 0) (C : K) :
    ∀ k ∈ ndindex shape, interferometerFill (2 * n) R shape (seedArray (2 * n) C) k = C * herm R (fun _ => 0) k := by
  obtain ⟨rest, hr⟩ := ndindex_head shape hs
  unfold interferometerFill
  rw [hr, List.drop_one, List.tail_cons]
  have hpw := ndindex_pairwise shape
  rw [hr] at hpw
  refine fill_spec (fun G k => G k) (interferometerStep (2 * n) R) (seedArray (2 * n) C) (fun k => C * herm R (fun _ => 0) k) _ rest hpw ?_ ?_ ?_
  · simp only [seedArray, hlen, if_true, herm_zero, mul_one]
  · intro G idx k hk
    simp only [interferometerStep]
    split
    · simp [hk]
    · rfl
  · intro G idx hidx hinit hdep
    obtain ⟨d1, d2⟩ := deps_ok hr hidx hdep
    have hm : idx ∈ ndindex shape := by rw [hr]; simp [hidx]
    have hil := (mem_ndindex.mp hm).length_eq
    simp only [interferometerStep]
    split
    · simp only [Function.update_self]
      rw [foldl_sub, herm_rec R _ (nonzero_of_mem_rest hr hidx), mul_sub, ← List.sum_map_mul_left]
      congr 1
      · ring
      · congr 1
        apply List.map_congr_left
        intro lk hlk
        rw [d2 lk hlk]; ring
    · rename_i hb
      rw [herm_unbalanced n R idx (by omega) hR hb, mul_zero, hinit, seedArray, if_neg]
      intro he
      obtain ⟨i, hi⟩ := nonzero_of_mem_rest hr hidx
      rw [he] at hi
      simp only [List.getD_eq_getElem?_getD, List.getElem?_replicate] at hi
      split at hi <;> simp at hi

theorem interferometerFillRenorm_eq (sq : ℕ → K) (hsq : ∀ m, 0 < m → sq m ≠ 0) (hsq2 : ∀ m, sq m * sq m = m)
    (n : ℕ) (R : ℕ → ℕ → K) (shape : List ℕ) (hlen : shape.length = 2 * n) (hs : ∀ c ∈ shape, c ≠ 0)
    (hR : ∀ i j, i < 2 * n → j < 2 * n → (i < n ↔ j < n) → R i j = 0) (C : K) :
    ∀ k ∈ ndindex shape, interferometerFillRenorm sq (2 * n) R shape (seedArray (2 * n) C) k
      = C * herm R (fun _ => 0) k / sqFact sq k := by
  obtain ⟨rest, hr⟩ := ndindex_head shape hs
  unfold interferometerFillRenorm
  rw [hr, List.drop_one, List.tail_cons]
  have hpw := ndindex_pairwise shape
  rw [hr] at hpw
  refine fill_spec (fun G k => G k) (interferometerStepRenorm sq (2 * n) R) (seedArray (2 * n) C)
    (fun k => C * herm R (fun _ => 0) k / sqFact sq k) _ rest hpw ?_ ?_ ?_
  · simp only [seedArray, hlen, if_true, herm_zero, mul_one, sqFact_zero, div_one]
  · intro G idx k hk
    simp only [interferometerStepRenorm]
    split
    · simp [hk]
    · rfl
  · intro G idx hidx hinit hdep
    obtain ⟨d1, d2⟩ := deps_ok hr hidx hdep
    have hm : idx ∈ ndindex shape := by rw [hr]; simp [hidx]
    have hil := (mem_ndindex.mp hm).length_eq
    have hnz := nonzero_of_mem_rest hr hidx
    obtain ⟨f1, f2, f3⟩ := firstPos_spec hnz
    simp only [interferometerStepRenorm]
    split
    · simp only [Function.update_self]
      rw [foldl_sub, herm_rec R _ hnz, sqFact_decAt sq idx _ f2]
      have hS := sqFact_ne_zero sq hsq (decAt idx (firstPos idx))
      have hq := hsq _ f2
      set S := sqFact sq (decAt idx (firstPos idx)) with hSdef
      have hterm : ((removeAll (decAt idx (firstPos idx))).map fun lk =>
          sq ((decAt idx (firstPos idx)).getD lk.1 0) * R (firstPos idx) lk.1 * G lk.2).sum
          = (C / S) * ((removeAll (decAt idx (firstPos idx))).map fun lk =>
          ((decAt idx (firstPos idx)).getD lk.1 0 : K) * R (firstPos idx) lk.1 * herm R (fun _ => 0) lk.2).sum := by
        rw [← List.sum_map_mul_left]
        congr 1
        apply List.map_congr_left
        intro lk hlk
        rw [d2 lk hlk]
        obtain ⟨j, hj, rfl⟩ := List.mem_map.mp hlk
        have hj' : 0 < (decAt idx (firstPos idx)).getD j 0 := by simpa using (List.mem_filter.mp hj).2
        have e := sqFact_decAt sq (decAt idx (firstPos idx)) j hj'
        have hS2 := sqFact_ne_zero sq hsq (decAt (decAt idx (firstPos idx)) j)
        have hqj := hsq _ hj'
        rw [hSdef, e, ← hsq2 ((decAt idx (firstPos idx)).getD j 0)]
        field_simp
      rw [hterm]
      field_simp
      ring
    · rename_i hb
      rw [herm_unbalanced n R idx (by omega) hR hb, mul_zero, zero_div, hinit, seedArray, if_neg]
      intro he
      obtain ⟨i, hi⟩ := hnz
      rw [he] at hi
      simp only [List.getD_eq_getElem?_getD, List.getElem?_replicate] at hi
      split at hi <;> simp at hi

end ring

end Verif.Model
