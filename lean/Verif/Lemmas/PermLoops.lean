/- Loop invariants of the Gray-code loops. -/
import Verif.Model.Permanent
import Verif.Lemmas.Gray
import Verif.Lemmas.PermFormulas
import Mathlib.Algebra.BigOperators.Fin

namespace Verif

open Finset Verif.Model

variable {K : Type} [Field K]

theorem npProd_eq (n : ℕ) (v : ℕ → K) : npProd n v = ∏ i : Fin n, v i := by
  induction n with
  | zero => simp [npProd]
  | succ n ih =>
    rw [Fin.prod_univ_castSucc]
    simp only [npProd, List.range_succ, List.foldl_append, List.foldl_cons, List.foldl_nil] at ih ⊢
    rw [ih]; simp

theorem foldl_add_eq (n : ℕ) (v : ℕ → K) :
    (List.range n).foldl (fun acc r => acc + v r) 0 = ∑ r : Fin n, v r := by
  induction n with
  | zero => simp
  | succ n ih =>
    rw [Fin.sum_univ_castSucc]
    simp only [List.range_succ, List.foldl_append, List.foldl_cons, List.foldl_nil]
    rw [ih]; simp

theorem idxOf_pows (n t : ℕ) (h : t < n) : pyIndex ((List.range n).map (2 ^ ·)) (2 ^ t) = .ok t := by
  have : ((List.range n).map (2 ^ ·)).idxOf? (2 ^ t) = some t := by
    rw [List.idxOf?, List.findIdx?_eq_some_iff_getElem]
    refine ⟨by simpa using h, by simp, ?_⟩
    intro j hj
    simp
    omega
  simp [pyIndex, this]

theorem pows_of_idxOf (n x t : ℕ) (h : pyIndex ((List.range n).map (2 ^ ·)) x = .ok t) :
    t < n ∧ x = 2 ^ t := by
  unfold pyIndex at h
  split at h
  · rename_i i hi
    simp at h
    subst h
    rw [List.idxOf?, List.findIdx?_eq_some_iff_getElem] at hi
    obtain ⟨h1, h2, _⟩ := hi
    simp at h1 h2
    exact ⟨h1, h2.symm⟩
  · simp at h

/-- One Gray step as seen by the loop: lookup succeeds at some bit `t < n`, the selected set changes exactly by
`t`, and `direction` is -1 when the bit gets set and +1 when it gets cleared. -/
theorem gray_transition {n g g' t : ℕ} (ht : t < n) (h : g ^^^ g' = 2 ^ t) :
    (bits n g' = insert ⟨t, ht⟩ (bits n g) ∧ (⟨t, ht⟩ : Fin n) ∉ bits n g ∧ direction g g' = -1) ∨
    (bits n g = insert ⟨t, ht⟩ (bits n g') ∧ (⟨t, ht⟩ : Fin n) ∉ bits n g' ∧ direction g g' = 1) := by
  have hg' : g' = g ^^^ 2 ^ t := by rw [← h, ← Nat.xor_assoc, Nat.xor_self, Nat.zero_xor]
  have hg : g = g' ^^^ 2 ^ t := by rw [hg', Nat.xor_assoc, Nat.xor_self, Nat.xor_zero]
  have hpos : 0 < 2 ^ t := Nat.two_pow_pos _
  have aux : ∀ a b : ℕ, b = a ^^^ 2 ^ t → a.testBit t = false → bits n b = insert ⟨t, ht⟩ (bits n a) := by
    intro a b hb ha
    ext r
    simp only [bits, Finset.mem_filter, Finset.mem_univ, true_and, Finset.mem_insert, hb, Nat.testBit_xor,
      Nat.testBit_two_pow]
    by_cases hr : t = (r : ℕ)
    · have : r = ⟨t, ht⟩ := Fin.ext hr.symm
      subst this; simp [ha]
    · have : r ≠ ⟨t, ht⟩ := fun h => hr (congrArg Fin.val h).symm
      simp [hr, this]
  cases hb : g.testBit t
  · left
    refine ⟨aux g g' hg' hb, by simp [bits, hb], ?_⟩
    have := xor_two_pow_of_not_testBit hb
    rw [← hg'] at this
    simp [direction, this]
  · right
    have hb' : g'.testBit t = false := by rw [hg']; simp [Nat.testBit_xor, hb]
    refine ⟨aux g' g hg hb', by simp [bits, hb'], ?_⟩
    have := xor_two_pow_of_not_testBit hb'
    rw [← hg] at this
    simp [direction, this]

theorem gray_zero : gray 0 = 0 := rfl

theorem bits_zero (n : ℕ) : bits n 0 = ∅ := by simp [bits]

theorem gray_last {n : ℕ} (hn : 0 < n) : gray (2 ^ n - 1) = 2 ^ (n - 1) := by
  apply Nat.eq_of_testBit_eq
  intro i
  simp only [gray, Nat.testBit_xor, Nat.testBit_div_two, Nat.testBit_two_pow_sub_one, Nat.testBit_two_pow]
  by_cases h1 : i < n
  · by_cases h2 : i + 1 < n
    · simp [h1, h2]; omega
    · simp [h1, h2]; omega
  · have : ¬ (i + 1 < n) := by omega
    simp [h1, this]; omega

theorem step_index_lt {n k t : ℕ} (hk : k + 1 < 2 ^ n) (hd : 2 ^ t ∣ k + 1) : t < n := by
  by_contra h
  have := Nat.le_of_dvd (Nat.succ_pos k) hd
  have h2 : 2 ^ n ≤ 2 ^ t := Nat.pow_le_pow_right (by norm_num) (not_lt.mp h)
  omega

theorem neg_one_pow_bits_gray {n k : ℕ} (hk : k < 2 ^ n) :
    (-1 : K) ^ (bits n (gray k)).card = (-1) ^ k := by
  induction k with
  | zero => simp [gray_zero, bits_zero]
  | succ k ih =>
    obtain ⟨t, ht, hd⟩ := gray_step k
    have htn := step_index_lt hk hd
    have ih := ih (by omega)
    rcases gray_transition htn ht with ⟨h1, h2, _⟩ | ⟨h1, h2, _⟩
    · rw [h1, Finset.card_insert_of_notMem h2, pow_succ, ih, pow_succ]
    · rw [h1, Finset.card_insert_of_notMem h2, pow_succ] at ih
      rw [pow_succ, ← ih]; ring

/-- State of the Ryser loop before iteration `k` (`k < 2^n`). -/
theorem ryser_state {n : ℕ} (M : ℕ → ℕ → K) (k : ℕ) (hk : k < 2 ^ n) :
    (List.range k).foldlM (fun s k => ryserBody n M k s)
      ({ total := 0, rowComb := fun _ => 0, old := 0, sign := 1 } : GrayState K)
    = .ok { total := ∑ j ∈ range k, (-1) ^ j * ∏ i : Fin n, (-(∑ r ∈ bits n (gray j), M r i))
            rowComb := fun i => -(∑ r ∈ bits n (gray k), M r i)
            old := gray k
            sign := (-1) ^ k } := by
  induction k with
  | zero => simp [gray_zero, bits_zero]; rfl
  | succ k ih =>
    rw [List.range_succ, List.foldlM_append, ih (by omega)]
    obtain ⟨t, ht, hd⟩ := gray_step k
    have htn := step_index_lt hk hd
    have hmod : (k + 1) % 2 ^ n = k + 1 := Nat.mod_eq_of_lt hk
    have hix : pyIndex ((List.range n).map (2 ^ ·)) (gray k ^^^ ((k + 1) ^^^ ((k + 1) / 2))) = .ok t := by
      have := idxOf_pows n t htn
      rw [← ht] at this
      exact this
    simp only [List.foldlM_cons, List.foldlM_nil, bind, Except.bind, ryserBody, hmod, hix, npProd_eq,
      pure, Except.pure]
    congr 2
    · rw [sum_range_succ]
    · funext i
      have htr := gray_transition htn ht
      change -(∑ r ∈ bits n (gray k), M r i) + M t i * (direction (gray k) (gray (k+1)) : K) = _
      rcases htr with ⟨h1, h2, h3⟩ | ⟨h1, h2, h3⟩
      · rw [h1, Finset.sum_insert h2, h3]; push_cast; ring
      · rw [h1, Finset.sum_insert h2, h3]; push_cast; ring
    · rw [pow_succ]; ring

theorem permRyser_eq {n : ℕ} (M : ℕ → ℕ → K) :
    permRyser n M = .ok (toMatrix n n M).permanent := by
  unfold permRyser
  split
  · rename_i h; subst h; simp [Matrix.permanent]
  · rename_i hn
    have hn : 0 < n := Nat.pos_of_ne_zero hn
    have h2 : 0 < 2 ^ n := Nat.two_pow_pos _
    have e : 2 ^ n = (2 ^ n - 1) + 1 := by omega
    have hr : List.range (2 ^ n) = List.range (2 ^ n - 1) ++ [2 ^ n - 1] := by
      conv_lhs => rw [e]
      rw [List.range_succ]
    rw [hr, List.foldlM_append, ryser_state M (2 ^ n - 1) (by omega)]
    have hmod : (2 ^ n - 1 + 1) % 2 ^ n = 0 := by rw [← e]; simp
    have hix : pyIndex ((List.range n).map (2 ^ ·)) (gray (2 ^ n - 1) ^^^ (0 ^^^ (0 / 2))) = .ok (n - 1) := by
      rw [gray_last hn]; simpa using idxOf_pows n (n - 1) (by omega)
    simp only [List.foldlM_cons, List.foldlM_nil, bind, Except.bind, ryserBody, hmod, hix, npProd_eq,
      pure, Except.pure]
    congr 1
    rw [← sum_range_succ (fun j => (-1 : K) ^ j * ∏ i : Fin n, (-(∑ r ∈ bits n (gray j), M r i))), ← e]
    rw [← ryser_formula, ← sum_gray]
    refine Finset.sum_congr rfl fun j hj => ?_
    rw [neg_one_pow_bits_gray (by simpa using hj)]
    rfl

/-- State of the BBFG loop after `k` iterations. -/
theorem bbfg_state {n : ℕ} (hn : 0 < n) (M : ℕ → ℕ → K) (k : ℕ) (hk : k ≤ 2 ^ (n - 1)) :
    ((List.range k).map (· + 1)).foldlM (fun s b => bbfgBody n M b s)
      ({ total := 0, rowComb := fun i => (List.range n).foldl (fun acc r => acc + M r i) 0,
         old := 0, sign := 1 } : GrayState K)
    = .ok { total := ∑ j ∈ range k, (-1) ^ j * ∏ i : Fin n, (∑ r : Fin n, delta (bits n (gray j)) r * M r i)
            rowComb := fun i => ∑ r : Fin n, delta (bits n (gray k)) r * M r i
            old := gray k
            sign := (-1) ^ k } := by
  induction k with
  | zero => simp [gray_zero, bits_zero, foldl_add_eq, delta]; rfl
  | succ k ih =>
    rw [List.range_succ, List.map_append, List.foldlM_append, ih (by omega)]
    obtain ⟨t, ht, hd⟩ := gray_step k
    have htn : t < n := by
      by_contra h
      have h1 := Nat.le_of_dvd (Nat.succ_pos k) hd
      have h2 : 2 ^ n ≤ 2 ^ t := Nat.pow_le_pow_right (by norm_num) (not_lt.mp h)
      have h3 : 2 ^ n = 2 * 2 ^ (n - 1) := by
        obtain ⟨m, rfl⟩ : ∃ m, n = m + 1 := ⟨n - 1, by omega⟩
        simp [pow_succ]; ring
      have : 0 < 2 ^ (n - 1) := Nat.two_pow_pos _
      omega
    have hix : pyIndex ((List.range n).map (2 ^ ·)) (gray k ^^^ ((k + 1) ^^^ ((k + 1) / 2))) = .ok t := by
      have := idxOf_pows n t htn
      rw [← ht] at this
      exact this
    simp only [List.map_cons, List.map_nil, List.foldlM_cons, List.foldlM_nil, bind, Except.bind, bbfgBody,
      hix, npProd_eq, pure, Except.pure]
    congr 2
    · rw [sum_range_succ]
    · funext i
      have htr := gray_transition htn ht
      change (∑ r : Fin n, delta (bits n (gray k)) r * M r i)
        + M t i * ((2 * direction (gray k) (gray (k+1)) : ℤ) : K) = _
      have key : ∀ (S : Finset (Fin n)) (a : Fin n), a ∉ S →
          ∑ r : Fin n, (delta (insert a S) r : K) * M r i = (∑ r : Fin n, delta S r * M r i) - 2 * M a i := by
        intro S a ha
        have : ∀ r : Fin n, (delta (insert a S) r : K) * M r i = delta S r * M r i - (if r = a then 2 * M a i else 0) := by
          intro r
          unfold delta
          by_cases hr : r = a
          · subst hr; simp [ha]; ring
          · simp [hr]
        simp only [this, Finset.sum_sub_distrib, Finset.sum_ite_eq', Finset.mem_univ, if_true]
      rcases htr with ⟨h1, h2, h3⟩ | ⟨h1, h2, h3⟩
      · rw [h1, key _ _ h2, h3]; push_cast; ring
      · rw [h1, key _ _ h2, h3]; push_cast; ring
    · rw [pow_succ]; ring

theorem sum_gray_half {n : ℕ} (hn : 0 < n) (F : Finset (Fin n) → K) :
    ∑ j ∈ range (2 ^ (n - 1)), F (bits n (gray j))
      = ∑ S ∈ univ.filter (fun S : Finset (Fin n) => (⟨n - 1, by omega⟩ : Fin n) ∉ S), F S := by
  have hinj : Set.InjOn (fun j => bits n (gray j)) (Finset.range (2 ^ (n - 1))) := by
    intro a ha b hb h
    have h1 : 2 ^ (n - 1) ≤ 2 ^ n := Nat.pow_le_pow_right (by norm_num) (by omega)
    simp only [Finset.coe_range, Set.mem_Iio] at ha hb
    exact bits_gray_injOn n (by simp; omega) (by simp; omega) h
  rw [← Finset.sum_image (f := F) hinj]
  congr 1
  apply Finset.eq_of_subset_of_card_le
  · intro S hS
    simp only [Finset.mem_image, Finset.mem_range] at hS
    obtain ⟨j, hj, rfl⟩ := hS
    simp only [Finset.mem_filter, Finset.mem_univ, true_and, bits]
    simpa using Nat.testBit_lt_two_pow (gray_lt hj)
  · rw [Finset.card_image_of_injOn hinj, Finset.card_range]
    have : (univ.filter (fun S : Finset (Fin n) => (⟨n - 1, by omega⟩ : Fin n) ∉ S))
        = (univ.erase (⟨n - 1, by omega⟩ : Fin n)).powerset := by
      ext S
      simp only [Finset.mem_filter, Finset.mem_univ, true_and, Finset.mem_powerset]
      constructor
      · intro h r hr
        simp only [Finset.mem_erase, Finset.mem_univ, and_true]
        rintro rfl; exact h hr
      · intro h h1
        simpa using h h1
    rw [this, Finset.card_powerset, Finset.card_erase_of_mem (Finset.mem_univ _)]
    simp

theorem permBbfg_eq [CharZero K] {n : ℕ} (M : ℕ → ℕ → K) :
    permBbfg n M = .ok (toMatrix n n M).permanent := by
  unfold permBbfg
  split
  · rename_i h; subst h; simp [Matrix.permanent]
  · rename_i hn
    have hn : 0 < n := Nat.pos_of_ne_zero hn
    simp only []
    rw [bbfg_state hn M _ le_rfl]
    simp only [bind, Except.bind, pure, Except.pure]
    congr 1
    have h1 : ∑ j ∈ range (2 ^ (n - 1)), (-1 : K) ^ j * ∏ i : Fin n, (∑ r : Fin n, delta (bits n (gray j)) r * M r i)
        = ∑ j ∈ range (2 ^ (n - 1)), (fun S : Finset (Fin n) => (-1 : K) ^ S.card *
            ∏ i : Fin n, (∑ r : Fin n, delta S r * M r i)) (bits n (gray j)) := by
      refine Finset.sum_congr rfl fun j hj => ?_
      have : j < 2 ^ n := lt_of_lt_of_le (by simpa using hj) (Nat.pow_le_pow_right (by norm_num) (by omega))
      simp only [neg_one_pow_bits_gray this]
    rw [h1, sum_gray_half hn (fun S : Finset (Fin n) => (-1 : K) ^ S.card *
            ∏ i : Fin n, (∑ r : Fin n, delta S r * M r i))]
    have h2 := glynn_half (toMatrix n n M) (⟨n - 1, by omega⟩ : Fin n)
    simp only [Fintype.card_fin] at h2
    have h3 : ((2:ℕ) ^ (n-1) : ℕ) = ((2:K) ^ (n-1)) := by push_cast; rfl
    rw [h3, div_eq_iff (pow_ne_zero _ two_ne_zero)]
    rw [mul_comm]
    exact h2

end Verif
