/-
C34, C35, C36: the loss matrix, photon loss and added noise on a photon-number distribution.
-/
import Verif.Model.Loss
import Verif.Spec.Channels
import Verif.Lemmas.Kernel
import Mathlib.Data.List.GetD
import Mathlib.Tactic.Ring
import Mathlib.Tactic.FieldSimp
import Mathlib.Tactic.IntervalCases
import Mathlib.Tactic.Linarith
import Mathlib.Tactic.LinearCombination
import Mathlib.Data.Nat.Choose.Sum

set_option linter.unusedSimpArgs false

namespace Verif.Props
open Verif Verif.Model Verif.Model.Loss Verif.Spec Verif.Lemmas.Kernel

/-! ### C34 -/

theorem loss_survive_step (eta : ℝ) (h1 : eta ≠ 1) (i j : ℕ) (hj : 1 ≤ j) (hji : j ≤ i) :
    survive eta i (j - 1) * (eta / (1 - eta)) * ((i : ℝ) - j + 1) / j = survive eta i j := by
  obtain ⟨j, rfl⟩ : ∃ j', j = j' + 1 := ⟨j - 1, by omega⟩
  have hmu : (1 - eta) ≠ 0 := sub_ne_zero.mpr (Ne.symm h1)
  have hc : (i.choose (j + 1) : ℝ) * ((j : ℝ) + 1) = (i.choose j : ℝ) * ((i : ℝ) - j) := by
    have := Nat.choose_succ_right_eq i j
    have h2 : ((i.choose (j + 1) * (j + 1) : ℕ) : ℝ) = ((i.choose j * (i - j) : ℕ) : ℝ) := by rw [this]
    push_cast [Nat.cast_sub (show j ≤ i by omega)] at h2
    exact h2
  simp only [survive, Nat.add_sub_cancel]
  have he : i - j = (i - (j + 1)) + 1 := by omega
  rw [he, pow_succ, pow_succ]
  have hj0 : ((j : ℝ) + 1) ≠ 0 := by positivity
  push_cast
  field_simp
  have : (i : ℝ) - (j + 1) + 1 = i - j := by ring
  rw [this]
  linear_combination -(eta ^ j * eta) * hc

/-- C34: for a transmission between 0 and 1, entry `(i, j)` of `loss_mat` is the probability that `j` of `i` photons survive. -/
theorem lossMat_correct (eta : ℝ) (cutoff : ℕ) (h0 : 0 ≤ eta) (h1 : eta ≤ 1) :
    ∃ L, lossMat eta cutoff = .ok L ∧ ∀ i j, i < cutoff → j < cutoff → L i j = survive eta i j := by
  unfold lossMat
  rw [if_neg (by push Not; exact ⟨h0, h1⟩)]
  by_cases he : eta = 1
  · rw [if_pos he]
    refine ⟨_, rfl, fun i j _ _ => ?_⟩
    subst he
    rcases lt_trichotomy i j with h | h | h
    · simp [survive, Nat.choose_eq_zero_of_lt h, h.ne]
    · simp [survive, h]
    · simp [survive, h.ne', Nat.sub_ne_zero_of_lt h]
  · rw [if_neg he]
    refine ⟨_, rfl, ?_⟩
    have inv : ∀ n lm, (∀ a b, a < cutoff → lm a b = if a < n then survive eta a b else if b = 0 then (1 - eta) ^ a else 0) →
        n < cutoff → ∀ a b, a < cutoff →
          (forRange2 1 (n + 1) lm fun j lm => upd2 lm n j (lm n (j - 1) * (eta / (1 - eta)) * ((n : ℝ) - j + 1) / j)) a b =
            if a < n + 1 then survive eta a b else if b = 0 then (1 - eta) ^ a else 0 := by
      intro n lm hlm hn a b ha
      have hin := forRange2_inv (a := 1) (b := n + 1)
        (fun (k : ℕ) (l : ℕ → ℕ → ℝ) => ∀ a b, a < cutoff → l a b = if a < n then survive eta a b else if a = n then
          (if b < k then survive eta a b else 0) else if b = 0 then (1 - eta) ^ a else 0) (by omega) lm
        (fun j lm => upd2 lm n j (lm n (j - 1) * (eta / (1 - eta)) * ((n : ℝ) - j + 1) / j)) ?_ ?_
      · rw [hin a b ha]
        by_cases h1 : a < n
        · simp [h1, Nat.lt_succ_of_lt h1]
        · by_cases h2 : a = n
          · subst h2
            simp only [lt_self_iff_false, if_false, if_true, Nat.lt_succ_self]
            by_cases hb : b < a + 1
            · simp [hb]
            · simp [hb, survive, Nat.choose_eq_zero_of_lt (show a < b by omega)]
          · have : ¬ a < n + 1 := by omega
            simp [h1, h2, this]
      · intro a b ha
        rw [hlm a b ha]
        by_cases h1 : a < n
        · simp [h1]
        · by_cases h2 : a = n
          · subst h2
            by_cases hb : b = 0
            · subst hb; simp [survive]
            · have : ¬ b < 1 := by omega
              simp [hb]
          · simp [h1, h2]
      · intro j l hj hjn hl a b ha
        unfold upd2
        by_cases hab : a = n ∧ b = j
        · obtain ⟨rfl, rfl⟩ := hab
          have := hl a (b - 1) ha
          simp only [lt_self_iff_false, if_false, if_true] at this
          rw [if_pos (by omega)] at this
          simp only [true_and, and_self, if_true, this, lt_self_iff_false, if_false, Nat.lt_succ_self]
          exact loss_survive_step eta he a b hj (by omega)
        · rw [if_neg hab, hl a b ha]
          by_cases h1 : a < n
          · simp [h1]
          · by_cases h2 : a = n
            · subst h2
              have hb : b ≠ j := fun h => hab ⟨rfl, h⟩
              have : b < j + 1 ↔ b < j := by omega
              simp [this]
            · simp [h1, h2]
    have := forRange_inv (fun n lm => n ≤ cutoff → ∀ a b, a < cutoff →
        lm a b = if a < n then survive eta a b else if b = 0 then (1 - eta) ^ a else 0) cutoff
      (fun i j => if i < cutoff ∧ j = 0 then (1 - eta) ^ i else 0)
      (fun i lm => forRange2 1 (i + 1) lm fun j lm => upd2 lm i j (lm i (j - 1) * (eta / (1 - eta)) * ((i : ℝ) - j + 1) / j))
      (by intro _ a b ha; simp [ha]) (fun n lm hn h _ => inv n lm (h (by omega)) hn) le_rfl
    intro i j hi _
    exact (this i j hi).trans (by simp [hi])

/-- C34: any other transmission is refused. -/
theorem lossMat_error (eta : ℝ) (cutoff : ℕ) (h : eta < 0 ∨ 1 < eta) : lossMat eta cutoff = .error .valueError := by
  unfold lossMat
  rw [if_pos h]

theorem survive_nonneg {eta : ℝ} (h0 : 0 ≤ eta) (h1 : eta ≤ 1) (i j : ℕ) : 0 ≤ survive eta i j := by
  unfold survive
  have : 0 ≤ 1 - eta := by linarith
  positivity

theorem survive_sum (eta : ℝ) (c i : ℕ) (hi : i < c) : ∑ j : Fin c, survive eta i j = 1 := by
  rw [Fin.sum_univ_eq_sum_range (fun j => survive eta i j) c,
    ← Finset.sum_subset (Finset.range_subset_range.mpr (show i + 1 ≤ c by omega))]
  · have := add_pow eta (1 - eta) i
    rw [show eta + (1 - eta) = 1 by ring, one_pow] at this
    rw [this]
    exact Finset.sum_congr rfl fun j _ => by unfold survive; ring
  · intro j _ hj
    rw [Finset.mem_range] at hj
    simp [survive, Nat.choose_eq_zero_of_lt (show i < j by omega)]

theorem survive_comp (a b : ℝ) (c i j : ℕ) (hi : i < c) :
    ∑ l : Fin c, survive a i l * survive b l j = survive (a * b) i j := by
  rw [Fin.sum_univ_eq_sum_range (fun l => survive a i l * survive b l j) c]
  by_cases hij : j ≤ i
  · have hsub : Finset.Ico j (i + 1) ⊆ Finset.range c := by
      intro l hl
      simp only [Finset.mem_Ico, Finset.mem_range] at *
      omega
    rw [← Finset.sum_subset hsub]
    · rw [Finset.sum_Ico_eq_sum_range]
      have hterm : ∀ k ∈ Finset.range (i + 1 - j), survive a i (j + k) * survive b (j + k) j =
          (i.choose j : ℝ) * (a * b) ^ j * ((a * (1 - b)) ^ k * (1 - a) ^ (i - j - k) * ((i - j).choose k : ℝ)) := by
        intro k hk
        rw [Finset.mem_range] at hk
        have hc : i.choose (j + k) * (j + k).choose j = i.choose j * (i - j).choose k := by
          rw [Nat.choose_mul (Nat.le_add_right j k), Nat.add_sub_cancel_left]
        have hc' : (i.choose (j + k) : ℝ) * ((j + k).choose j : ℝ) = (i.choose j : ℝ) * ((i - j).choose k : ℝ) := by exact_mod_cast hc
        unfold survive
        rw [Nat.add_sub_cancel_left, show i - (j + k) = i - j - k by omega]
        rw [pow_add, mul_pow, mul_pow]
        linear_combination (a ^ j * a ^ k * (1 - a) ^ (i - j - k) * b ^ j * (1 - b) ^ k) * hc'
      rw [Finset.sum_congr rfl hterm, ← Finset.mul_sum, show i + 1 - j = (i - j) + 1 by omega, ← add_pow]
      unfold survive
      congr 2
      ring
    · intro l _ hl
      simp only [Finset.mem_Ico, not_and_or, not_le, not_lt] at hl
      rcases hl with hl | hl
      · simp [survive, Nat.choose_eq_zero_of_lt hl]
      · simp [survive, Nat.choose_eq_zero_of_lt (show i < l by omega)]
  · refine (Finset.sum_eq_zero fun l _ => ?_).trans ?_
    · by_cases hl : l < j
      · simp [survive, Nat.choose_eq_zero_of_lt hl]
      · simp [survive, Nat.choose_eq_zero_of_lt (show i < l by omega)]
    · simp [survive, Nat.choose_eq_zero_of_lt (show i < j by omega)]

/-- C34: `loss_mat` is a stochastic matrix: non-negative entries, every row sums to one. -/
theorem lossMat_stochastic (eta : ℝ) (cutoff : ℕ) (h0 : 0 ≤ eta) (h1 : eta ≤ 1) (L : ℕ → ℕ → ℝ) (hL : lossMat eta cutoff = .ok L) :
    (∀ i j, i < cutoff → j < cutoff → 0 ≤ L i j) ∧ ∀ i, i < cutoff → ∑ j : Fin cutoff, L i j = 1 := by
  obtain ⟨L', hL', h⟩ := lossMat_correct eta cutoff h0 h1
  rw [hL'] at hL
  obtain rfl : L' = L := by injection hL
  refine ⟨fun i j hi hj => by rw [h i j hi hj]; exact survive_nonneg h0 h1 i j, fun i hi => ?_⟩
  rw [← survive_sum eta cutoff i hi]
  exact Finset.sum_congr rfl fun j _ => h i j hi j.2

/-- C34: full transmission changes nothing and full loss leaves the vacuum. -/
theorem lossMat_extremes (cutoff : ℕ) :
    (∃ L, lossMat 1 cutoff = .ok L ∧ ∀ i j, i < cutoff → j < cutoff → L i j = if i = j then 1 else 0) ∧
    ∃ L, lossMat 0 cutoff = .ok L ∧ ∀ i j, i < cutoff → j < cutoff → L i j = if j = 0 then 1 else 0 := by
  constructor
  · obtain ⟨L, hL, h⟩ := lossMat_correct 1 cutoff (by norm_num) (by norm_num)
    refine ⟨L, hL, fun i j hi hj => ?_⟩
    rw [h i j hi hj]
    rcases lt_trichotomy i j with h | h | h
    · simp [survive, Nat.choose_eq_zero_of_lt h, h.ne]
    · simp [survive, h]
    · simp [survive, h.ne', Nat.sub_ne_zero_of_lt h]
  · obtain ⟨L, hL, h⟩ := lossMat_correct 0 cutoff (by norm_num) (by norm_num)
    refine ⟨L, hL, fun i j hi hj => ?_⟩
    rw [h i j hi hj]
    by_cases hj0 : j = 0
    · simp [survive, hj0]
    · simp [survive, hj0]

/-- C34: losses compose: `loss_mat(a) @ loss_mat(b) = loss_mat(a b)`. -/
theorem lossMat_mul (a b : ℝ) (cutoff : ℕ) (ha0 : 0 ≤ a) (ha1 : a ≤ 1) (hb0 : 0 ≤ b) (hb1 : b ≤ 1) (La Lb Lab : ℕ → ℕ → ℝ)
    (hLa : lossMat a cutoff = .ok La) (hLb : lossMat b cutoff = .ok Lb) (hLab : lossMat (a * b) cutoff = .ok Lab) :
    toMatrix cutoff cutoff La * toMatrix cutoff cutoff Lb = toMatrix cutoff cutoff Lab := by
  obtain ⟨L1, e1, h1⟩ := lossMat_correct a cutoff ha0 ha1
  obtain ⟨L2, e2, h2⟩ := lossMat_correct b cutoff hb0 hb1
  obtain ⟨L3, e3, h3⟩ := lossMat_correct (a * b) cutoff (mul_nonneg ha0 hb0) (mul_le_one₀ ha1 hb0 hb1)
  rw [e1] at hLa; rw [e2] at hLb; rw [e3] at hLab
  obtain rfl : L1 = La := by injection hLa
  obtain rfl : L2 = Lb := by injection hLb
  obtain rfl : L3 = Lab := by injection hLab
  ext i j
  rw [Matrix.mul_apply]
  show ∑ l : Fin cutoff, L1 i l * L2 l j = L3 i j
  rw [h3 i j i.2 j.2, ← survive_comp a b cutoff i j i.2]
  exact Finset.sum_congr rfl fun l _ => by rw [h1 i l i.2 l.2, h2 l j l.2 j.2]

/-! ### C35 -/

theorem eq_singleton_of_nodup {α : Type*} {l : List α} {a : α} (hn : l.Nodup) (h : ∀ x, x ∈ l ↔ x = a) : l = [a] := by
  have : l.Perm [a] := (List.perm_ext_iff_of_nodup hn (List.nodup_singleton a)).mpr (by simpa using h)
  exact List.perm_singleton.mp this

theorem alphabet_take (i : ℕ) (hi : i ≤ 8) :
    ((alphabet.take i).map Label.letter).Nodup ∧ Label.letter 'i' ∉ (alphabet.take i).map Label.letter ∧
      Label.letter 'j' ∉ (alphabet.take i).map Label.letter ∧ ((alphabet.take i).map Label.letter).length = i := by
  have h : alphabet = 'a' :: 'b' :: 'c' :: 'd' :: 'e' :: 'f' :: 'g' :: 'h' :: alphabet.drop 8 := by rfl
  rw [h]
  generalize alphabet.drop 8 = l
  interval_cases i <;> simp

theorem dots_nodup (n : ℕ) : ((List.range n).map Label.dots).Nodup :=
  List.Nodup.map (fun _ _ h => by injection h) List.nodup_range

theorem map_getD_idxOf {α : Type*} [DecidableEq α] (lo : List α) (hn : lo.Nodup) (idx : List ℕ) (hl : idx.length = lo.length) :
    lo.map (fun l => idx.getD (lo.idxOf l) 0) = idx := by
  refine List.ext_getElem (by simp [hl]) fun n h1 h2 => ?_
  simp only [List.getElem_map]
  rw [hn.idxOf_getElem n (by simpa using h1), List.getD_eq_getElem _ _ h2]

/-- one axis: the loss matrix contracted with that axis -/
theorem lossAxis_eq (m cutoff i : ℕ) (hi : i ≤ 8) (him : i < m) (eta : ℝ) (L : ℕ → ℕ → ℝ) (hL : lossMat eta cutoff = .ok L) (probs : List ℕ → ℝ) :
    ∃ q, lossAxis m cutoff i eta probs = .ok q ∧ ∀ idx : List ℕ, idx.length = m →
      q idx = ∑ v : Fin cutoff, L v (idx.getD i 0) * probs (idx.set i v) := by
  obtain ⟨hnd, hI, hJ, hlen⟩ := alphabet_take i hi
  unfold lossAxis
  simp only [hL, bind, Except.bind]
  generalize hpre : (alphabet.take i).map Label.letter = pre at *
  rw [hlen]
  generalize hell : (List.range (m - (i + 1))).map Label.dots = ell
  have hell_len : ell.length = m - (i + 1) := by rw [← hell]; simp
  have hell_nd : ell.Nodup := by rw [← hell]; exact dots_nodup _
  have hell_mem : ∀ c, Label.letter c ∉ ell := by intro c; rw [← hell]; simp
  have hpre_dots : ∀ k, Label.dots k ∉ pre := by intro k; rw [← hpre]; simp [-List.map_take]
  have hdisj : ∀ a ∈ pre, ∀ b ∈ ell, a ≠ b := by
    intro a ha b hb hab
    subst hab
    rw [← hell] at hb
    obtain ⟨k, _, rfl⟩ := List.mem_map.mp hb
    exact hpre_dots k ha
  have hlo : (pre ++ [Label.letter 'j'] ++ ell).Nodup := by
    rw [List.append_assoc, List.nodup_append]
    refine ⟨hnd, ?_, ?_⟩
    · rw [List.singleton_append, List.nodup_cons]
      exact ⟨hell_mem _, hell_nd⟩
    · intro a ha b hb
      rw [List.singleton_append, List.mem_cons] at hb
      rcases hb with rfl | hb
      · intro h; subst h; exact hJ ha
      · exact hdisj a ha b hb
  unfold einsum
  rw [if_neg (not_not.mpr hlo)]
  refine ⟨_, rfl, fun idx hidx => ?_⟩
  have hcon : (([Label.letter 'i', Label.letter 'j'] ++ (pre ++ [Label.letter 'i'] ++ ell)).dedup.filter
      fun l => l ∉ pre ++ [Label.letter 'j'] ++ ell) = [Label.letter 'i'] := by
    refine eq_singleton_of_nodup ((List.nodup_dedup _).filter _) fun x => ?_
    simp only [List.mem_filter, List.mem_dedup, List.mem_append, List.mem_cons, List.not_mem_nil, or_false, decide_eq_true_eq]
    constructor
    · rintro ⟨h1, h2⟩
      push Not at h2
      rcases h1 with (rfl | rfl) | ((h | h) | h)
      · rfl
      · exact absurd rfl h2.1.2
      · exact absurd h h2.1.1
      · exact h
      · exact absurd h h2.2
    · rintro rfl
      refine ⟨.inl (.inl rfl), ?_⟩
      push Not
      exact ⟨⟨hI, by decide⟩, hell_mem _⟩
  simp only [hcon, sumLabels]
  rw [← List.sum_ofFn]
  have hrange : (List.range cutoff) = List.ofFn fun v : Fin cutoff => (v : ℕ) := by
    refine List.ext_getElem (by simp) fun n h1 h2 => by simp
  rw [hrange, List.map_ofFn]
  congr 2
  funext v
  simp only [Function.comp]
  generalize henv : (fun l => idx.getD ((pre ++ [Label.letter 'j'] ++ ell).idxOf l) 0) = env
  have hmap : (pre ++ [Label.letter 'j'] ++ ell).map env = idx := by
    rw [← henv]
    exact map_getD_idxOf _ hlo idx (by simp [hlen, hell_len]; omega)
  have hj : env (Label.letter 'j') = idx.getD i 0 := by
    rw [← hmap]
    simp [List.getElem?_append, hlen]
  have h1 : pre.map (Function.update env (Label.letter 'i') (v : ℕ)) = pre.map env :=
    List.map_congr_left fun a ha => Function.update_of_ne (by rintro rfl; exact hI ha) _ _
  have h2 : ell.map (Function.update env (Label.letter 'i') (v : ℕ)) = ell.map env :=
    List.map_congr_left fun a ha => Function.update_of_ne (by rintro rfl; exact hell_mem _ ha) _ _
  congr 1
  · simp only [List.map_cons, List.map_nil, List.getD_cons_zero, List.getD_cons_succ, Function.update_self]
    rw [Function.update_of_ne (by decide), hj]
  · congr 1
    simp only [List.map_append, List.map_cons, List.map_nil, Function.update_self, h1, h2]
    conv_rhs => rw [← hmap]
    simp only [List.map_append, List.map_cons, List.map_nil, List.append_assoc, List.singleton_append]
    rw [List.set_append_right _ _ (by simp [hlen])]
    simp [hlen]

/-- A tensor of the model with `m` axes of length `c`, as a function of its indices. -/
def asFun (m c : ℕ) (T : List ℕ → ℝ) : (Fin m → Fin c) → ℝ := fun i => T (List.ofFn fun k => (i k : ℕ))

theorem ofFn_set {m : ℕ} {c : ℕ} (j : Fin m → Fin c) (k : Fin m) (v : Fin c) :
    (List.ofFn fun a => (j a : ℕ)).set k v = List.ofFn fun a => ((Function.update j k v) a : ℕ) := by
  refine List.ext_getElem (by simp) fun n h1 h2 => ?_
  simp only [List.getElem_set, List.getElem_ofFn]
  by_cases h : (k : ℕ) = n
  · subst h; simp
  · rw [if_neg h, Function.update_of_ne]
    intro h'
    exact h (by rw [← h'])

theorem foldlM_range_ok {α : Type} (m : ℕ) (f : α → ℕ → Except PyErr α) (a : α) (q : ℕ → α) (h0 : q 0 = a)
    (hs : ∀ k, k < m → f (q k) k = .ok (q (k + 1))) : (List.range m).foldlM f a = .ok (q m) := by
  induction m with
  | zero => subst h0; rfl
  | succ m ih =>
    rw [List.range_succ, List.foldlM_append, ih fun k hk => hs k (by omega)]
    show (List.foldlM f (q m) [m]) = _
    simp [hs m (by omega)]

/-- C35: for at most nine modes the result is the distribution of the surviving photons. -/
theorem updateLoss_correct (m c : ℕ) (hm : 0 < m) (hm9 : m ≤ 9) (etas : List ℝ) (hlen : etas.length = m) (h : ∀ e ∈ etas, 0 ≤ e ∧ e ≤ 1)
    (probs : List ℕ → ℝ) :
    ∃ q, updateLoss m c etas probs = .ok q ∧ asFun m c q = lossy (fun k => etas.getD k 0) (asFun m c probs) := by
  have heta : ∀ k, k < m → 0 ≤ etas.getD k 0 ∧ etas.getD k 0 ≤ 1 := by
    intro k hk
    rw [List.getD_eq_getElem _ _ (by omega)]
    exact h _ (List.getElem_mem _)
  have hstep : ∀ (k : ℕ) (p : List ℕ → ℝ), k < m → ∃ q, lossAxis m c k (etas.getD k 0) p = .ok q ∧ ∀ idx : List ℕ, idx.length = m →
      idx.getD k 0 < c → q idx = ∑ v : Fin c, survive (etas.getD k 0) v (idx.getD k 0) * p (idx.set k v) := by
    intro k p hk
    obtain ⟨L, hL, hLs⟩ := lossMat_correct (etas.getD k 0) c (heta k hk).1 (heta k hk).2
    obtain ⟨q, hq, hqs⟩ := lossAxis_eq m c k (by omega) hk _ L hL p
    refine ⟨q, hq, fun idx hidx hlt => ?_⟩
    rw [hqs idx hidx]
    exact Finset.sum_congr rfl fun v _ => by rw [hLs v _ v.2 hlt]
  have hex : ∀ (k : ℕ) (p : List ℕ → ℝ), ∃ q, k < m → lossAxis m c k (etas.getD k 0) p = .ok q ∧ ∀ idx : List ℕ, idx.length = m →
      idx.getD k 0 < c → q idx = ∑ v : Fin c, survive (etas.getD k 0) v (idx.getD k 0) * p (idx.set k v) := by
    intro k p
    by_cases hk : k < m
    · obtain ⟨q, hq⟩ := hstep k p hk
      exact ⟨q, fun _ => hq⟩
    · exact ⟨p, fun h => absurd h hk⟩
  choose nxt hnxt using hex
  let q : ℕ → List ℕ → ℝ := fun k => Nat.rec probs (fun k p => nxt k p) k
  have hq1 : ∀ k, q (k + 1) = nxt k (q k) := fun k => rfl
  refine ⟨q m, ?_, ?_⟩
  · unfold updateLoss
    rw [if_neg (by omega), if_neg (by omega)]
    exact foldlM_range_ok m (fun probs i => lossAxis m c i (etas.getD i 0) probs) probs q rfl fun k hk => by
      rw [hq1]
      exact (hnxt k (q k) hk).1
  · have := op_fold (m := m) (c := c) (fun k => Matrix.of fun v w => survive (etas.getD k 0) v w) (asFun m c probs) (fun k => asFun m c (q k)) rfl ?_
    · exact this
    · intro k j
      have h2 := (hnxt k (q k) k.2).2 (List.ofFn fun a => (j a : ℕ)) (by simp)
      have hj : (List.ofFn fun a => (j a : ℕ)).getD k 0 = j k := by
        rw [List.getD_eq_getElem _ _ (by simp)]; simp
      rw [hj] at h2
      show nxt k (q k) _ = _
      rw [h2 (j k).2]
      refine Finset.sum_congr rfl fun v _ => ?_
      rw [ofFn_set]
      rfl

/-- C35: the total probability does not change. -/
theorem updateLoss_total (m c : ℕ) (hm : 0 < m) (hm9 : m ≤ 9) (etas : List ℝ) (hlen : etas.length = m) (h : ∀ e ∈ etas, 0 ≤ e ∧ e ≤ 1)
    (probs q : List ℕ → ℝ) (hq : updateLoss m c etas probs = .ok q) :
    ∑ j : Fin m → Fin c, asFun m c q j = ∑ j : Fin m → Fin c, asFun m c probs j := by
  obtain ⟨q', hq', he⟩ := updateLoss_correct m c hm hm9 etas hlen h probs
  rw [hq] at hq'
  obtain rfl : q = q' := by injection hq'
  rw [he]
  refine (op_total (fun k => Matrix.of fun v w => survive (etas.getD k 0) v w) (asFun m c probs)).trans ?_
  refine Finset.sum_congr rfl fun i _ => ?_
  rw [Finset.prod_eq_one, one_mul]
  intro k _
  exact survive_sum _ c _ (i k).2

/-- C35: probabilities stay non-negative. -/
theorem updateLoss_nonneg (m c : ℕ) (hm : 0 < m) (hm9 : m ≤ 9) (etas : List ℝ) (hlen : etas.length = m) (h : ∀ e ∈ etas, 0 ≤ e ∧ e ≤ 1)
    (probs q : List ℕ → ℝ) (hq : updateLoss m c etas probs = .ok q) (hp : ∀ i, 0 ≤ asFun m c probs i) (j : Fin m → Fin c) :
    0 ≤ asFun m c q j := by
  obtain ⟨q', hq', he⟩ := updateLoss_correct m c hm hm9 etas hlen h probs
  rw [hq] at hq'
  obtain rfl : q = q' := by injection hq'
  rw [he]
  refine Finset.sum_nonneg fun i _ => mul_nonneg (Finset.prod_nonneg fun k _ => ?_) (hp i)
  have : etas.getD k 0 ∈ etas := by
    rw [List.getD_eq_getElem _ _ (by rw [hlen]; exact k.2)]
    exact List.getElem_mem _
  exact survive_nonneg (h _ this).1 (h _ this).2 _ _

/-- C35: applying transmissions `a`, then `b`, is applying the products. -/
theorem updateLoss_comp (m c : ℕ) (hm : 0 < m) (hm9 : m ≤ 9) (a b : List ℝ) (ha : a.length = m) (hb : b.length = m)
    (ha01 : ∀ e ∈ a, 0 ≤ e ∧ e ≤ 1) (hb01 : ∀ e ∈ b, 0 ≤ e ∧ e ≤ 1) (probs q r s : List ℕ → ℝ)
    (hq : updateLoss m c a probs = .ok q) (hr : updateLoss m c b q = .ok r)
    (hs : updateLoss m c (List.zipWith (· * ·) a b) probs = .ok s) : asFun m c r = asFun m c s := by
  have key : ∀ (etas : List ℝ) (p q : List ℕ → ℝ), etas.length = m → (∀ e ∈ etas, 0 ≤ e ∧ e ≤ 1) → updateLoss m c etas p = .ok q →
      asFun m c q = op (fun k => Matrix.of fun v w => survive (etas.getD k 0) v w) (asFun m c p) := by
    intro etas p q hlen h hq
    obtain ⟨q', hq', he⟩ := updateLoss_correct m c hm hm9 etas hlen h p
    rw [hq] at hq'
    obtain rfl : q = q' := by injection hq'
    exact he
  have hz : ∀ e ∈ List.zipWith (· * ·) a b, 0 ≤ e ∧ e ≤ 1 := by
    intro e he
    obtain ⟨n, hn, rfl⟩ := List.getElem_of_mem he
    rw [List.getElem_zipWith]
    have h1 := ha01 _ (List.getElem_mem (l := a) (n := n) (by simp at hn; omega))
    have h2 := hb01 _ (List.getElem_mem (l := b) (n := n) (by simp at hn; omega))
    exact ⟨mul_nonneg h1.1 h2.1, mul_le_one₀ h1.2 h2.1 h2.2⟩
  rw [key b q r hb hb01 hr, key a probs q ha ha01 hq, key _ probs s (by simp [ha, hb]) hz hs, op_comp]
  congr 1
  funext k
  ext v w
  rw [Matrix.mul_apply]
  simp only [Matrix.of_apply]
  have : (List.zipWith (· * ·) a b).getD k 0 = a.getD k 0 * b.getD k 0 := by
    rw [List.getD_eq_getElem _ _ (by simp [ha, hb]), List.getElem_zipWith, List.getD_eq_getElem _ _ (by simp [ha]),
      List.getD_eq_getElem _ _ (by simp [hb])]
  rw [this]
  exact survive_comp _ _ c v w v.2

/-- C35: a wrong number of transmissions raises `ValueError`. -/
theorem updateLoss_length (m c : ℕ) (etas : List ℝ) (h : etas.length ≠ m) (probs : List ℕ → ℝ) :
    updateLoss m c etas probs = .error .valueError := by
  unfold updateLoss
  rw [if_pos (Ne.symm h)]

theorem alphabet_nine : (alphabet.take 9).map Label.letter = ['a', 'b', 'c', 'd', 'e', 'f', 'g', 'h', 'i'].map Label.letter := by
  rfl

theorem alphabet_ten : (alphabet.take 10).map Label.letter = ['a', 'b', 'c', 'd', 'e', 'f', 'g', 'h', 'i', 'j'].map Label.letter := by
  rfl

/-- the tenth axis: the letter `i` occurs twice in the input and also in the output, so a diagonal is taken and nothing is summed -/
theorem lossAxis_nine (m cutoff : ℕ) (hm : 10 ≤ m) (eta : ℝ) (L : ℕ → ℕ → ℝ) (hL : lossMat eta cutoff = .ok L) (probs : List ℕ → ℝ) :
    ∃ q, lossAxis m cutoff 9 eta probs = .ok q ∧ ∀ idx : List ℕ, idx.length = m →
      q idx = L (idx.getD 8 0) (idx.getD 9 0) * probs (idx.set 9 (idx.getD 8 0)) := by
  unfold lossAxis
  simp only [hL, bind, Except.bind]
  rw [alphabet_nine]
  generalize hpre : ['a', 'b', 'c', 'd', 'e', 'f', 'g', 'h', 'i'].map Label.letter = pre
  have hlen : pre.length = 9 := by rw [← hpre]; rfl
  have hnd : pre.Nodup := by rw [← hpre]; decide
  have hI : Label.letter 'i' ∈ pre := by rw [← hpre]; decide
  have hJ : Label.letter 'j' ∉ pre := by rw [← hpre]; decide
  rw [hlen]
  generalize hell : (List.range (m - (9 + 1))).map Label.dots = ell
  have hell_len : ell.length = m - 10 := by rw [← hell]; simp
  have hell_nd : ell.Nodup := by rw [← hell]; exact dots_nodup _
  have hell_mem : ∀ c, Label.letter c ∉ ell := by intro c; rw [← hell]; simp
  have hpre_dots : ∀ k, Label.dots k ∉ pre := by intro k; rw [← hpre]; simp
  have hdisj : ∀ a ∈ pre, ∀ b ∈ ell, a ≠ b := by
    intro a ha b hb hab
    subst hab
    rw [← hell] at hb
    obtain ⟨k, _, rfl⟩ := List.mem_map.mp hb
    exact hpre_dots k ha
  have hlo : (pre ++ [Label.letter 'j'] ++ ell).Nodup := by
    rw [List.append_assoc, List.nodup_append]
    refine ⟨hnd, ?_, ?_⟩
    · rw [List.singleton_append, List.nodup_cons]
      exact ⟨hell_mem _, hell_nd⟩
    · intro a ha b hb
      rw [List.singleton_append, List.mem_cons] at hb
      rcases hb with rfl | hb
      · intro h; subst h; exact hJ ha
      · exact hdisj a ha b hb
  unfold einsum
  rw [if_neg (not_not.mpr hlo)]
  refine ⟨_, rfl, fun idx hidx => ?_⟩
  have hcon : (([Label.letter 'i', Label.letter 'j'] ++ (pre ++ [Label.letter 'i'] ++ ell)).dedup.filter
      fun l => l ∉ pre ++ [Label.letter 'j'] ++ ell) = [] := by
    rw [List.filter_eq_nil_iff]
    intro x hx
    simp only [List.mem_dedup, List.mem_append, List.mem_cons, List.not_mem_nil, or_false, decide_eq_true_eq] at hx ⊢
    rcases hx with (rfl | rfl) | ((h | rfl) | h) <;> simp_all
  simp only [hcon, sumLabels]
  generalize henv : (fun l => idx.getD ((pre ++ [Label.letter 'j'] ++ ell).idxOf l) 0) = env
  have hmap : (pre ++ [Label.letter 'j'] ++ ell).map env = idx := by
    rw [← henv]
    exact map_getD_idxOf _ hlo idx (by simp [hlen, hell_len]; omega)
  have hj : env (Label.letter 'j') = idx.getD 9 0 := by
    rw [← hmap]
    simp [List.getElem?_append, hlen]
  have hi : env (Label.letter 'i') = idx.getD 8 0 := by
    rw [← hmap, ← hpre]
    simp
  congr 1
  · simp only [List.map_cons, List.map_nil, List.getD_cons_zero, List.getD_cons_succ, hi, hj]
  · congr 1
    simp only [List.map_append, List.map_cons, List.map_nil, hi]
    generalize idx.getD 8 0 = w
    rw [← hmap]
    simp only [List.map_append, List.map_cons, List.map_nil, List.append_assoc, List.singleton_append]
    rw [List.set_append_right _ _ (by simp [hlen])]
    simp [hlen]

/-- C35, what the code does with eleven or more modes: the subscripts name an output letter twice and numpy raises `ValueError`. -/
theorem updateLoss_eleven_modes (m c : ℕ) (hm : 11 ≤ m) (etas : List ℝ) (hlen : etas.length = m) (h : ∀ e ∈ etas, 0 ≤ e ∧ e ≤ 1)
    (probs : List ℕ → ℝ) : updateLoss m c etas probs = .error .valueError := by
  have heta : ∀ k, k < m → 0 ≤ etas.getD k 0 ∧ etas.getD k 0 ≤ 1 := by
    intro k hk
    rw [List.getD_eq_getElem _ _ (by omega)]
    exact h _ (List.getElem_mem _)
  have hex : ∀ (k : ℕ) (p : List ℕ → ℝ), ∃ q, k < 10 → lossAxis m c k (etas.getD k 0) p = .ok q := by
    intro k p
    by_cases hk : k < 10
    · obtain ⟨L, hL, -⟩ := lossMat_correct (etas.getD k 0) c (heta k (by omega)).1 (heta k (by omega)).2
      by_cases hk9 : k = 9
      · subst hk9
        obtain ⟨q, hq, -⟩ := lossAxis_nine m c (by omega) _ L hL p
        exact ⟨q, fun _ => hq⟩
      · obtain ⟨q, hq, -⟩ := lossAxis_eq m c k (by omega) (by omega) _ L hL p
        exact ⟨q, fun _ => hq⟩
    · exact ⟨p, fun h => absurd h hk⟩
  choose nxt hnxt using hex
  let q : ℕ → List ℕ → ℝ := fun k => Nat.rec probs (fun k p => nxt k p) k
  have h10 := foldlM_range_ok 10 (fun probs i => lossAxis m c i (etas.getD i 0) probs) probs q rfl fun k hk => hnxt k (q k) hk
  have hsplit : List.range m = List.range 10 ++ 10 :: (List.range (m - 11)).map (11 + ·) := by
    rw [show m = 11 + (m - 11) by omega, List.range_add, Nat.add_sub_cancel_left, List.range_succ, List.append_assoc]
    rfl
  obtain ⟨L, hL, -⟩ := lossMat_correct (etas.getD 10 0) c (heta 10 (by omega)).1 (heta 10 (by omega)).2
  have herr : ∀ p, lossAxis m c 10 (etas.getD 10 0) p = .error .valueError := by
    intro p
    unfold lossAxis
    simp only [hL, bind, Except.bind]
    rw [alphabet_ten]
    unfold einsum
    rw [if_pos]
    intro hcon
    rw [List.append_assoc, List.nodup_append] at hcon
    exact hcon.2.2 (Label.letter 'j') (by decide) (Label.letter 'j') (by simp) rfl
  unfold updateLoss
  rw [if_neg (by omega), if_neg (by omega), hsplit, List.foldlM_append, h10]
  simp only [bind, Except.bind, List.foldlM_cons, herr]

/-- C35, what the code does with ten modes: it returns wrong values without complaint.  Without any loss (all transmissions one) and with
certainly one photon, in the last mode, every returned probability is zero. -/
theorem updateLoss_ten_modes : ∃ q, updateLoss 10 2 (List.replicate 10 1)
      (fun idx => if idx = List.replicate 9 0 ++ [1] then 1 else 0) = .ok q ∧
    ∀ idx : List ℕ, idx.length = 10 → (∀ x ∈ idx, x < 2) → q idx = 0 := by
  set p : List ℕ → ℝ := fun idx => if idx = List.replicate 9 0 ++ [1] then 1 else 0 with hp
  obtain ⟨L, hL, hLs⟩ := lossMat_correct 1 2 (by norm_num) (by norm_num)
  have hL1 : ∀ i j, i < 2 → j < 2 → L i j = if i = j then 1 else 0 := by
    intro i j hi hj
    obtain ⟨L', hL', h⟩ := (lossMat_extremes 2).1
    rw [hL] at hL'
    obtain rfl : L = L' := by injection hL'
    exact h i j hi hj
  have hg : ∀ k, k < 10 → (List.replicate 10 (1 : ℝ)).getD k 0 = 1 := by
    intro k hk
    rw [List.getD_eq_getElem _ _ (by rw [List.length_replicate]; exact hk), List.getElem_replicate]
  have hex : ∀ (k : ℕ) (r : List ℕ → ℝ), ∃ q, k < 9 → lossAxis 10 2 k ((List.replicate 10 (1 : ℝ)).getD k 0) r = .ok q ∧
      ∀ idx : List ℕ, idx.length = 10 → (∀ x ∈ idx, x < 2) → q idx = r idx := by
    intro k r
    by_cases hk : k < 9
    · rw [hg k (by omega)]
      obtain ⟨q, hq, hqs⟩ := lossAxis_eq 10 2 k (by omega) (by omega) _ L hL r
      refine ⟨q, fun _ => ⟨hq, fun idx hidx hlt => ?_⟩⟩
      have hb : idx.getD k 0 < 2 := by
        rw [List.getD_eq_getElem _ _ (by omega)]
        exact hlt _ (List.getElem_mem _)
      rw [hqs idx hidx, Finset.sum_eq_single ⟨idx.getD k 0, hb⟩]
      · rw [hL1 _ _ hb hb, if_pos rfl, one_mul]
        congr 1
        refine List.ext_getElem (by simp) fun n h1 h2 => ?_
        rw [List.getElem_set]
        split
        · next h => subst h; exact List.getD_eq_getElem _ _ (by omega)
        · rfl
      · intro v _ hv
        rw [hL1 _ _ v.2 hb, if_neg fun h => hv (Fin.ext h), zero_mul]
      · simp
    · exact ⟨r, fun h => absurd h hk⟩
  choose nxt hnxt using hex
  let q : ℕ → List ℕ → ℝ := fun k => Nat.rec p (fun k p => nxt k p) k
  have hqp : ∀ k, k ≤ 9 → ∀ idx : List ℕ, idx.length = 10 → (∀ x ∈ idx, x < 2) → q k idx = p idx := by
    intro k hk
    induction k with
    | zero => intro idx _ _; rfl
    | succ k ih =>
      intro idx h1 h2
      exact ((hnxt k (q k) (by omega)).2 idx h1 h2).trans (ih (by omega) idx h1 h2)
  have h9 := foldlM_range_ok 9 (fun probs i => lossAxis 10 2 i ((List.replicate 10 (1 : ℝ)).getD i 0) probs) p q rfl
    fun k hk => (hnxt k (q k) hk).1
  obtain ⟨z, hz, hzs⟩ := lossAxis_nine 10 2 (by omega) _ L hL (q 9)
  refine ⟨z, ?_, fun idx hidx hlt => ?_⟩
  · unfold updateLoss
    rw [if_neg (by simp), if_neg (by omega), List.range_succ, List.foldlM_append, h9]
    simp only [bind, Except.bind, List.foldlM_cons, hg 9 (by omega), hz]
    rfl
  · have hb : ∀ k, k < 10 → idx.getD k 0 < 2 := by
      intro k hk
      rw [List.getD_eq_getElem _ _ (by omega)]
      exact hlt _ (List.getElem_mem _)
    rw [hzs idx hidx, hL1 _ _ (hb 8 (by omega)) (hb 9 (by omega))]
    by_cases h89 : idx.getD 8 0 = idx.getD 9 0
    · rw [if_pos h89, one_mul, hqp 9 le_rfl _ (by simpa using hidx) ?_]
      · rw [hp]
        refine if_neg fun hcon => ?_
        have h8 : (idx.set 9 (idx.getD 8 0)).getD 8 0 = 0 := by rw [hcon]; rfl
        have h9' : (idx.set 9 (idx.getD 8 0)).getD 9 0 = 1 := by rw [hcon]; rfl
        rw [List.getD_eq_getElem _ _ (by simp [hidx]), List.getElem_set_self] at h9'
        rw [List.getD_eq_getElem _ _ (by simp [hidx]), List.getElem_set_ne (by omega), ← List.getD_eq_getElem _ 0] at h8
        omega
      · intro x hx
        rcases List.mem_or_eq_of_mem_set hx with h | h
        · exact hlt x h
        · rw [h]; exact hb 8 (by omega)
    · rw [if_neg h89, zero_mul]

/-! ### C36 -/

theorem update1d_cons (T : List ℕ → ℝ) (oneD : List ℝ) (c a : ℕ) (ha : a < c) (tl : List ℕ) :
    update1d T oneD c (a :: tl) = ∑ v : Fin c, (if (v : ℕ) ≤ a then oneD.getD (a - v) 0 else 0) * T (v :: tl) := by
  have inner : ∀ (i n : ℕ) (D : List ℕ → ℝ), (forRange n D fun j newD idx =>
      if idx.head? = some i then newD idx + T ((i - j) :: idx.tail) * oneD.getD j 0 else newD idx) (a :: tl) =
      D (a :: tl) + if a = i then ∑ j ∈ Finset.range n, T ((i - j) :: tl) * oneD.getD j 0 else 0 := by
    intro i n D
    induction n with
    | zero => simp
    | succ n ih =>
      rw [forRange_succ]
      simp only [ih, List.head?_cons, Option.some.injEq, List.tail_cons]
      by_cases h : a = i
      · simp only [h, if_true, Finset.sum_range_succ]
        rw [add_assoc]
      · simp [h]
  have outer : ∀ n, (forRange n (fun _ => (0 : ℝ)) fun i newD => forRange (min (i + 1) oneD.length) newD fun j newD idx =>
      if idx.head? = some i then newD idx + T ((i - j) :: idx.tail) * oneD.getD j 0 else newD idx) (a :: tl) =
      if a < n then ∑ j ∈ Finset.range (min (a + 1) oneD.length), T ((a - j) :: tl) * oneD.getD j 0 else 0 := by
    intro n
    induction n with
    | zero => simp
    | succ n ih =>
      rw [forRange_succ, inner, ih]
      by_cases h1 : a < n
      · simp [h1, Nat.lt_succ_of_lt h1, h1.ne]
      · by_cases h2 : a = n
        · subst h2; simp
        · have : ¬ a < n + 1 := by omega
          simp [h1, h2, this]
  unfold update1d
  rw [outer c, if_pos ha]
  rw [Fin.sum_univ_eq_sum_range (fun v => (if v ≤ a then oneD.getD (a - v) 0 else 0) * T (v :: tl)) c,
    ← Finset.sum_subset (Finset.range_subset_range.mpr (show a + 1 ≤ c by omega))]
  · have hsub : Finset.range (min (a + 1) oneD.length) ⊆ Finset.range (a + 1) := Finset.range_subset_range.mpr (min_le_left _ _)
    rw [Finset.sum_subset hsub, ← Finset.sum_range_reflect (fun v => (if v ≤ a then oneD.getD (a - v) 0 else 0) * T (v :: tl))]
    · refine Finset.sum_congr rfl fun j hj => ?_
      rw [Finset.mem_range] at hj
      rw [if_pos (by omega), show a - (a + 1 - 1 - j) = j by omega, show a + 1 - 1 - j = a - j by omega, mul_comm]
    · intro j hj hj'
      rw [Finset.mem_range] at hj hj'
      rw [List.getD_eq_default _ _ (by omega), mul_zero]
  · intro v _ hv
    rw [Finset.mem_range] at hv
    rw [if_neg (by omega), zero_mul]

theorem swapList_getD (m k : ℕ) (b : ℕ) (hb : b < m) :
    (((List.range m).set 0 k).set k 0).getD b 0 = Equiv.swap 0 k b := by
  rw [List.getD_eq_getElem _ _ (by simpa using hb), List.getElem_set]
  by_cases h1 : k = b
  · subst h1; simp
  · rw [if_neg h1, List.getElem_set]
    by_cases h2 : 0 = b
    · subst h2; simp
    · rw [if_neg h2, List.getElem_range, Equiv.swap_apply_of_ne_of_ne (Ne.symm h2) (Ne.symm h1)]

theorem swap_lt (m k : ℕ) (hk : k < m) (b : ℕ) (hb : b < m) : Equiv.swap 0 k b < m := by
  rw [Equiv.swap_apply_def]
  split_ifs <;> omega

theorem swapList_idxOf (m k : ℕ) (hk : k < m) (b : ℕ) (hb : b < m) :
    (((List.range m).set 0 k).set k 0).idxOf b = Equiv.swap 0 k b := by
  set l := ((List.range m).set 0 k).set k 0 with hl
  have hlen : l.length = m := by simp [hl]
  have hget : ∀ a, (h : a < l.length) → l[a] = Equiv.swap 0 k a := by
    intro a h
    rw [← List.getD_eq_getElem _ 0 h]
    exact swapList_getD m k a (by omega)
  have hnd : l.Nodup := by
    rw [List.nodup_iff_injective_get]
    intro a b h
    simp only [List.get_eq_getElem, hget] at h
    exact Fin.ext ((Equiv.swap 0 k).injective h)
  have hs : Equiv.swap 0 k b < l.length := by rw [hlen]; exact swap_lt m k hk b hb
  have := hnd.idxOf_getElem (Equiv.swap 0 k b) hs
  rwa [hget _ hs, Equiv.swap_apply_self] at this

/-- transposing with the swap of axes 0 and `k` -/
theorem transpose_swap (m k : ℕ) (hk : k < m) (T : List ℕ → ℝ) (idx : List ℕ) :
    transpose (((List.range m).set 0 k).set k 0) T idx = T ((List.range m).map fun b => idx.getD (Equiv.swap 0 k b) 0) := by
  unfold transpose
  congr 1
  simp only [List.length_set, List.length_range]
  refine List.map_congr_left fun b hb => ?_
  rw [swapList_idxOf m k hk b (List.mem_range.mp hb)]

theorem swap_idx_swap (m k : ℕ) (hk : k < m) (idx : List ℕ) (hl : idx.length = m) (v : ℕ) :
    ((List.range m).map fun b => (v :: ((List.range m).map fun b => idx.getD (Equiv.swap 0 k b) 0).tail).getD (Equiv.swap 0 k b) 0) = idx.set k v := by
  refine List.ext_getElem (by simp [hl]) fun n h1 h2 => ?_
  have hn : n < m := by simpa using h1
  rw [List.getElem_map, List.getElem_range, List.getElem_set]
  by_cases hkn : k = n
  · subst hkn; simp
  · rw [if_neg hkn]
    have hs := swap_lt m k hk n hn
    have h0 : Equiv.swap 0 k n ≠ 0 := by
      intro h
      have := congrArg (Equiv.swap 0 k) h
      rw [Equiv.swap_apply_self, Equiv.swap_apply_left] at this
      exact hkn this.symm
    obtain ⟨w, hw⟩ : ∃ w, Equiv.swap 0 k n = w + 1 := ⟨_, (Nat.succ_pred_eq_of_ne_zero h0).symm⟩
    rw [hw, List.getD_cons_succ, List.getD_eq_getElem _ _ (by simp; omega), List.getElem_tail, List.getElem_map, List.getElem_range, ← hw,
      Equiv.swap_apply_self, List.getD_eq_getElem _ _ (by omega)]

/-- C36: the result is the distribution of the photon numbers plus independent noise, truncated to the original shape. -/
theorem updateNoise_correct (m c : ℕ) (hm : 0 < m) (noise : List (List ℝ)) (hlen : noise.length = m) (probs : List ℕ → ℝ) :
    ∃ q, updateNoise m c noise probs = .ok q ∧
      asFun m c q = noisy (fun k n => (noise.getD k []).getD n 0) (asFun m c probs) := by
  unfold updateNoise
  rw [if_neg (by omega), if_neg (by omega)]
  refine ⟨_, rfl, ?_⟩
  have := op_fold (m := m) (c := c) (fun k => Matrix.of fun v w => if (v : ℕ) ≤ w then (noise.getD k []).getD (w - v) 0 else 0)
    (asFun m c probs) (fun n => asFun m c (forRange n probs fun k probs =>
      transpose (((List.range m).set 0 k).set k 0) (update1d (transpose (((List.range m).set 0 k).set k 0) probs) (noise.getD k []) c))) rfl ?_
  · exact this
  · intro k j
    simp only [forRange_succ]
    generalize (forRange (k : ℕ) probs fun k probs => transpose (((List.range m).set 0 k).set k 0)
      (update1d (transpose (((List.range m).set 0 k).set k 0) probs) (noise.getD k []) c)) = T
    unfold asFun
    generalize hidx : (List.ofFn fun a => (j a : ℕ)) = idx
    have hl : idx.length = m := by rw [← hidx]; simp
    rw [transpose_swap m k k.2]
    have hcons : ((List.range m).map fun b => idx.getD (Equiv.swap 0 (k : ℕ) b) 0) =
        idx.getD k 0 :: ((List.range m).map fun b => idx.getD (Equiv.swap 0 (k : ℕ) b) 0).tail := by
      obtain ⟨m, rfl⟩ : ∃ m', m = m' + 1 := ⟨m - 1, by omega⟩
      rw [List.range_succ_eq_map]
      simp
    have hjk : idx.getD k 0 = j k := by
      rw [← hidx, List.getD_eq_getElem _ _ (by simp)]; simp
    rw [hcons, update1d_cons _ _ _ _ (by rw [hjk]; exact (j k).2)]
    refine Finset.sum_congr rfl fun v _ => ?_
    rw [transpose_swap m k k.2, swap_idx_swap m k k.2 idx hl, ← hidx, ofFn_set, hidx, hjk]
    rfl

/-- C36: noise distributions that are non-negative with total at most one do not increase the total probability. -/
theorem updateNoise_total (m c : ℕ) (hm : 0 < m) (noise : List (List ℝ)) (hlen : noise.length = m) (h0 : ∀ l ∈ noise, ∀ x ∈ l, 0 ≤ x)
    (h1 : ∀ l ∈ noise, l.sum ≤ 1) (probs q : List ℕ → ℝ) (hp : ∀ i, 0 ≤ asFun m c probs i) (hq : updateNoise m c noise probs = .ok q) :
    ∑ j : Fin m → Fin c, asFun m c q j ≤ ∑ j : Fin m → Fin c, asFun m c probs j := by
  obtain ⟨q', hq', he⟩ := updateNoise_correct m c hm noise hlen probs
  rw [hq] at hq'
  obtain rfl : q = q' := by injection hq'
  rw [he]
  refine (op_total (fun k => Matrix.of fun v w => if (v : ℕ) ≤ w then (noise.getD k []).getD (w - v) 0 else 0) (asFun m c probs)).le.trans ?_
  refine Finset.sum_le_sum fun i _ => ?_
  have hget : ∀ (l : List ℝ), (∀ x ∈ l, 0 ≤ x) → ∀ n, 0 ≤ l.getD n 0 := by
    intro l hl n
    by_cases hn : n < l.length
    · rw [List.getD_eq_getElem _ _ hn]; exact hl _ (List.getElem_mem _)
    · rw [List.getD_eq_default _ _ (by omega)]
  have hsum : ∀ (l : List ℝ), (∀ x ∈ l, 0 ≤ x) → ∀ n, ∑ a ∈ Finset.range n, l.getD a 0 ≤ l.sum := by
    intro l
    induction l with
    | nil => intro _ n; simp
    | cons x l ih =>
      intro hl n
      cases n with
      | zero => simpa using List.sum_nonneg hl
      | succ n =>
        rw [Finset.sum_range_succ', List.sum_cons, add_comm]
        exact add_le_add le_rfl (ih (fun y hy => hl y (List.mem_cons_of_mem _ hy)) n)
  have hrow : ∀ k : Fin m, 0 ≤ (∑ w : Fin c, if ((i k : Fin c) : ℕ) ≤ w then (noise.getD k []).getD (w - i k) 0 else 0) ∧
      (∑ w : Fin c, if ((i k : Fin c) : ℕ) ≤ w then (noise.getD k []).getD (w - i k) 0 else 0) ≤ 1 := by
    intro k
    have hmem : noise.getD k [] ∈ noise := by
      rw [List.getD_eq_getElem _ _ (by rw [hlen]; exact k.2)]
      exact List.getElem_mem _
    refine ⟨Finset.sum_nonneg fun w _ => ?_, ?_⟩
    · split_ifs
      · exact hget _ (h0 _ hmem) _
      · exact le_rfl
    · refine le_trans (le_of_eq ?_) ((hsum _ (h0 _ hmem) (c - i k)).trans (h1 _ hmem))
      rw [Fin.sum_univ_eq_sum_range (fun w => if ((i k : Fin c) : ℕ) ≤ w then (noise.getD k []).getD (w - i k) 0 else 0) c,
        ← Finset.sum_filter]
      have : (Finset.range c).filter (fun w => ((i k : Fin c) : ℕ) ≤ w) = Finset.Ico (i k : ℕ) c := by
        ext w; simp [and_comm]
      rw [this, Finset.sum_Ico_eq_sum_range]
      exact Finset.sum_congr rfl fun a _ => by rw [Nat.add_sub_cancel_left]
  calc _ ≤ 1 * asFun m c probs i := mul_le_mul_of_nonneg_right (Finset.prod_le_one (fun k _ => (hrow k).1) fun k _ => (hrow k).2) (hp i)
    _ = _ := one_mul _

/-- C36: a wrong number of noise distributions raises `ValueError`. -/
theorem updateNoise_length (m c : ℕ) (hm : 0 < m) (noise : List (List ℝ)) (h : noise.length ≠ m) (probs : List ℕ → ℝ) :
    updateNoise m c noise probs = .error .valueError := by
  unfold updateNoise
  rw [if_neg (by omega), if_pos (Ne.symm h)]

/-! ### concrete cases -/

/-- two modes, cutoff 3: the hypotheses of the theorems above hold and loss moves a photon: from `(2, 1)` with transmissions 1/2 and 1/4 the
probability of `(1, 0)` is `2·½·½·¾` -/
example : ∃ q, updateLoss 2 3 [1 / 2, 1 / 4] (fun idx => if idx = [2, 1] then 1 else 0) = .ok q ∧ q [1, 0] = 3 / 8 := by
  obtain ⟨q, hq, he⟩ := updateLoss_correct 2 3 (by norm_num) (by norm_num) [1 / 2, 1 / 4] rfl
    (by intro e he; simp only [List.mem_cons, List.not_mem_nil, or_false] at he; rcases he with rfl | rfl <;> norm_num)
    (fun idx => if idx = [2, 1] then 1 else 0)
  refine ⟨q, hq, ?_⟩
  have h1 : q [1, 0] = asFun 2 3 q ![1, 0] := rfl
  rw [h1, he, lossy, Finset.sum_eq_single ![2, 1]]
  · simp [asFun, survive, Fin.prod_univ_two]
    norm_num
  · intro i _ hi
    have : ¬ ((i 0 : ℕ) = 2 ∧ (i 1 : ℕ) = 1) := by
      rintro ⟨a, b⟩
      apply hi
      funext k
      fin_cases k
      · exact Fin.ext a
      · exact Fin.ext b
    simp [asFun, this]
  · simp

/-- two modes, cutoff 3: one noise photon in the second mode with probability 1/3 -/
example : ∃ q, updateNoise 2 3 [[1], [2 / 3, 1 / 3]] (fun idx => if idx = [2, 1] then 1 else 0) = .ok q ∧ q [2, 2] = 1 / 3 := by
  obtain ⟨q, hq, he⟩ := updateNoise_correct 2 3 (by norm_num) [[1], [2 / 3, 1 / 3]] rfl (fun idx => if idx = [2, 1] then 1 else 0)
  refine ⟨q, hq, ?_⟩
  have h1 : q [2, 2] = asFun 2 3 q ![2, 2] := rfl
  rw [h1, he, noisy, Finset.sum_eq_single ![2, 1]]
  · simp [asFun, Fin.prod_univ_two]
  · intro i _ hi
    have : ¬ ((i 0 : ℕ) = 2 ∧ (i 1 : ℕ) = 1) := by
      rintro ⟨a, b⟩
      apply hi
      funext k
      fin_cases k
      · exact Fin.ext a
      · exact Fin.ext b
    simp [asFun, this]
  · simp

end Verif.Props
