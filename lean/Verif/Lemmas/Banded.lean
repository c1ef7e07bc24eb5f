/- Lemmas for powerset, hafnian_banded, hafnian_sparse. -/
import Verif.Model.HafnianOther
import Verif.Lemmas.LhafSpec
import Mathlib.Data.List.Sublists
import Mathlib.Data.Finset.Sort
import Mathlib.Data.Nat.Choose.Basic

namespace Verif.Model

set_option linter.unusedSectionVars false
set_option linter.unusedSimpArgs false

section comb
variable {α : Type*}

theorem mem_combinations {r : ℕ} {l m : List α} : m ∈ combinations r l ↔ m.Sublist l ∧ m.length = r := by
  induction l generalizing r m with
  | nil => cases r <;> simp [combinations, List.sublist_nil]; rintro rfl; simp
  | cons x xs ih =>
    cases r with
    | zero =>
      simp only [combinations, List.mem_singleton, List.length_eq_zero_iff]
      constructor
      · rintro rfl; simp
      · exact fun h => h.2
    | succ r =>
      simp only [combinations, List.mem_append, List.mem_map, ih]
      constructor
      · rintro (⟨m', ⟨h1, h2⟩, rfl⟩ | ⟨h1, h2⟩)
        · exact ⟨h1.cons_cons x, by simp [h2]⟩
        · exact ⟨h1.cons x, h2⟩
      · rintro ⟨h1, h2⟩
        cases h1 with
        | cons _ h => exact Or.inr ⟨h, h2⟩
        | cons_cons _ h => rename_i m'; exact Or.inl ⟨m', ⟨h, by simpa using h2⟩, rfl⟩

theorem combinations_nodup {r : ℕ} {l : List α} (h : l.Nodup) : (combinations r l).Nodup := by
  induction l generalizing r with
  | nil => cases r <;> simp [combinations]
  | cons x xs ih =>
    obtain ⟨hx, hn⟩ := List.nodup_cons.mp h
    cases r with
    | zero => simp [combinations]
    | succ r =>
      simp only [combinations]
      rw [List.nodup_append]
      refine ⟨(ih hn).map (fun a b h => by simpa using h), ih hn, ?_⟩
      rintro m hm m' hm' rfl
      obtain ⟨m', _, rfl⟩ := List.mem_map.mp hm
      exact hx ((mem_combinations.mp hm').1.subset (by simp))

theorem combinations_length (r : ℕ) (l : List α) : (combinations r l).length = l.length.choose r := by
  induction l generalizing r with
  | nil => cases r <;> simp [combinations]
  | cons x xs ih =>
    cases r with
    | zero => simp [combinations]
    | succ r => simp [combinations, ih, Nat.choose_succ_succ]

theorem mem_powerset' {l m : List α} : m ∈ powerset l ↔ m.Sublist l := by
  simp only [powerset, List.mem_flatMap, List.mem_range, mem_combinations]
  constructor
  · rintro ⟨r, _, h, _⟩; exact h
  · intro h; exact ⟨m.length, by have := h.length_le; omega, h, rfl⟩

theorem powerset_nodup' {l : List α} (h : l.Nodup) : (powerset l).Nodup := by
  unfold powerset
  rw [List.nodup_flatMap]
  refine ⟨fun r _ => combinations_nodup h, ?_⟩
  refine List.nodup_range.imp ?_
  intro r r' hrr
  simp only [Function.onFun, List.disjoint_left]
  intro m hm hm'
  exact hrr ((mem_combinations.mp hm).2.symm.trans (mem_combinations.mp hm').2)

end comb

variable {K : Type} [Field K]

/-! ### loop hafnian expansions by value -/

theorem eSum_filter {ι : Type*} [DecidableEq ι] (F : ι → List ι → K) (l : List ι) (h : l.Nodup) :
    eSum F l = (l.map fun y => F y (l.filter (· ≠ y))).sum := by
  induction l generalizing F with
  | nil => rfl
  | cons x xs ih =>
    obtain ⟨hx, hn⟩ := List.nodup_cons.mp h
    rw [eSum_cons, ih _ hn, List.map_cons, List.sum_cons]
    congr 1
    · congr 1
      rw [List.filter_cons_of_neg (by simp)]
      symm
      rw [List.filter_eq_self]
      intro a ha
      simp only [ne_eq, decide_eq_true_eq]
      rintro rfl; exact hx ha
    · congr 1
      apply List.map_congr_left
      intro y hy
      rw [List.filter_cons_of_pos]
      simp only [ne_eq, decide_eq_true_eq]
      rintro rfl; exact hx hy

/-! ### banded -/

/-- symmetric weights with entries further than `2w` from the diagonal dropped, vertices `1..n` -/
def bandW (A : ℕ → ℕ → K) (w : ℕ) (i j : ℕ) : K :=
  if max i j - min i j ≤ 2 * w then A (min i j - 1) (max i j - 1) else 0

theorem bandW_symm (A : ℕ → ℕ → K) (w i j : ℕ) : bandW A w i j = bandW A w j i := by
  simp only [bandW, max_comm, min_comm]

/-- the intended value of a key -/
def bandVal (A : ℕ → ℕ → K) (w : ℕ) (key : List ℕ) : K := lh (fun i => A (i - 1) (i - 1)) (bandW A w) key

theorem bandedDiff_eq (w t : ℕ) : bandedDiff w t = List.range' (t - 2 * w - 1 + 1) (t - (t - 2 * w - 1)) := by
  unfold bandedDiff bandedLower
  have h : List.range' 1 t = List.range' 1 (t - 2 * w - 1) ++ List.range' (t - 2 * w - 1 + 1) (t - (t - 2 * w - 1)) := by
    have := List.range'_append_1 (s := 1) (m := t - 2 * w - 1) (n := t - (t - 2 * w - 1))
    rw [Nat.add_comm 1 (t - 2 * w - 1)] at this
    rw [this]; congr 1; omega
  conv_lhs => rw [h]
  rw [List.filter_append]
  have h1 : (List.range' 1 (t - 2 * w - 1)).filter (fun x => decide (x ∉ List.range' 1 (t - 2 * w - 1))) = [] := by
    rw [List.filter_eq_nil_iff]; intro a ha; simp only [ha, not_true_eq_false, decide_false, Bool.false_eq_true, not_false_eq_true]
  have h2 : (List.range' (t - 2 * w - 1 + 1) (t - (t - 2 * w - 1))).filter
      (fun x => decide (x ∉ List.range' 1 (t - 2 * w - 1))) = List.range' (t - 2 * w - 1 + 1) (t - (t - 2 * w - 1)) := by
    rw [List.filter_eq_self]; intro a ha
    simp only [List.mem_range'_1, decide_eq_true_eq] at ha ⊢
    omega
  rw [h1, h2, List.nil_append]

/-- keys available after step `t` -/
def Avail (w t : ℕ) (key : List ℕ) : Prop := ∃ D, D.Sublist (bandedDiff w t) ∧ key = bandedLower w t ++ D

theorem avail_of_succ {w t : ℕ} {D : List ℕ} (hD : D.Sublist (bandedDiff w (t + 1))) (ht : t + 1 ∉ D) :
    Avail w t (bandedLower w (t + 1) ++ D) := by
  have hD' : D.Sublist (List.range' (t + 1 - 2 * w - 1 + 1) (t - (t + 1 - 2 * w - 1))) := by
    rw [bandedDiff_eq] at hD
    have e : t + 1 - (t + 1 - 2 * w - 1) = (t - (t + 1 - 2 * w - 1)) + 1 := by omega
    rw [e, List.range'_concat] at hD
    have : (t + 1 - 2 * w - 1 + 1) + 1 * (t - (t + 1 - 2 * w - 1)) = t + 1 := by omega
    rw [this] at hD
    obtain ⟨l1, l2, rfl, h1, h2⟩ := List.sublist_append_iff.mp hD
    rcases List.sublist_singleton.mp h2 with rfl | rfl
    · simpa using h1
    · exact absurd (by simp) ht
  unfold Avail
  rw [bandedDiff_eq]
  unfold bandedLower
  by_cases hc : t + 1 - 2 * w - 1 = 0
  · refine ⟨D, ?_, ?_⟩
    · rw [hc] at hD'
      rw [show t - 2 * w - 1 = 0 by omega]
      exact hD'
    · rw [hc, show t - 2 * w - 1 = 0 by omega]
  · obtain ⟨m, hm⟩ : ∃ m, t + 1 - 2 * w - 1 = m + 1 := ⟨t + 1 - 2 * w - 1 - 1, by omega⟩
    have hm' : t - 2 * w - 1 = m := by omega
    rw [hm] at hD' ⊢
    rw [hm']
    refine ⟨(m + 1) :: D, ?_, ?_⟩
    · have e : t - m = (t - (m + 1)) + 1 := by omega
      rw [e, List.range'_succ]
      exact hD'.cons_cons _
    · rw [List.range'_concat]
      simp [Nat.add_comm]

/-- soundness and availability of the dictionary -/
structure BandInv (A : ℕ → ℕ → K) (w t : ℕ) (d : TupleDict K) : Prop where
  sound : ∀ key v, d key = some v → v = bandVal A w key
  avail : ∀ key, Avail w t key → (d key).isSome

theorem bandFold {A : ℕ → ℕ → K} {t : ℕ} (d : TupleDict K) (w : ℕ)
    (sound : ∀ key v, d key = some v → v = bandVal A w key) (key : ℕ → List ℕ) (D : List ℕ)
    (h : ∀ i ∈ D, (d (key i)).isSome) (s : K) :
    D.foldlM (fun (s : K) i => (dictGet d (key i)).map fun x => s + A (i - 1) (t - 1) * x) s = Except.ok (s + (D.map fun i => A (i - 1) (t - 1) * bandVal A w (key i)).sum) := by
  induction D generalizing s with
  | nil => simp [pure, Except.pure]
  | cons i D ih =>
    obtain ⟨x, hx⟩ := Option.isSome_iff_exists.mp (h i (by simp))
    rw [List.foldlM_cons]
    have hg : dictGet d (key i) = .ok x := by simp [dictGet, hx]
    rw [hg]
    change List.foldlM _ (s + A (i - 1) (t - 1) * x) D = _
    rw [ih (fun j hj => h j (by simp [hj])), sound _ _ hx, List.map_cons, List.sum_cons, add_assoc]

theorem bandedStep_new {A : ℕ → ℕ → K} {w t : ℕ} (d : TupleDict K)
    (sound : ∀ key v, d key = some v → v = bandVal A w key)
    (avail : ∀ key, Avail w t key → (d key).isSome)
    (D : List ℕ) (hD : D.Sublist (bandedDiff w (t + 1))) :
    ∃ d', bandedStep A (t + 1) (bandedLower w (t + 1)) d D = .ok d' ∧
      (∀ key v, d' key = some v → v = bandVal A w key) ∧
      (∀ key, (d key).isSome → (d' key).isSome) ∧ (d' (bandedLower w (t + 1) ++ D)).isSome := by
  unfold bandedStep
  by_cases hp : (d (bandedLower w (t + 1) ++ D)).isSome
  · rw [if_pos hp]; exact ⟨d, rfl, sound, fun _ h => h, hp⟩
  rw [if_neg hp]
  have ht : t + 1 ∈ D := by
    by_contra hn
    exact hp (avail _ (avail_of_succ hD hn))
  -- D = D0 ++ [t+1]
  obtain ⟨D0, rfl, hD0⟩ : ∃ D0, D = D0 ++ [t + 1] ∧ D0.Sublist (List.range' (t + 1 - 2 * w - 1 + 1) (t - (t + 1 - 2 * w - 1))) := by
    rw [bandedDiff_eq] at hD
    have e : t + 1 - (t + 1 - 2 * w - 1) = (t - (t + 1 - 2 * w - 1)) + 1 := by omega
    rw [e, List.range'_concat] at hD
    have : (t + 1 - 2 * w - 1 + 1) + 1 * (t - (t + 1 - 2 * w - 1)) = t + 1 := by omega
    rw [this] at hD
    obtain ⟨l1, l2, rfl, h1, h2⟩ := List.sublist_append_iff.mp hD
    rcases List.sublist_singleton.mp h2 with rfl | rfl
    · rw [List.append_nil] at ht
      have := h1.subset ht
      rw [List.mem_range'_1] at this
      omega
    · exact ⟨l1, rfl, h1⟩
  have hD0mem : ∀ x ∈ D0, t + 1 - 2 * w - 1 + 1 ≤ x ∧ x < t + 1 := by
    intro x hx
    have := hD0.subset hx
    rw [List.mem_range'_1] at this
    omega
  have hlmem : ∀ x ∈ bandedLower w (t + 1), 1 ≤ x ∧ x ≤ t + 1 - 2 * w - 1 := by
    intro x hx
    rw [bandedLower, List.mem_range'_1] at hx
    omega
  have hD0sub : D0.Sublist (bandedDiff w (t + 1)) := (List.sublist_append_left D0 [t + 1]).trans hD
  set L := bandedLower w (t + 1) with hL
  -- the keys looked up
  have hkey : ∀ i, (L ++ (D0 ++ [t + 1])).filter (fun item => decide (item ≠ i ∧ item ≠ t + 1))
      = (L ++ D0).filter (· ≠ i) := by
    intro i
    rw [← List.append_assoc, List.filter_append (L ++ D0)]
    have : List.filter (fun item => decide (item ≠ i ∧ item ≠ t + 1)) [t + 1] = [] := by simp
    rw [this, List.append_nil]
    apply List.filter_congr
    intro x hx
    have : x ≠ t + 1 := by
      rcases List.mem_append.mp hx with h | h
      · have := hlmem x h; omega
      · have := hD0mem x h; omega
    simp [this]
  have hfiltL : ∀ i ∈ D0 ++ [t + 1], L.filter (· ≠ i) = L := by
    intro i hi
    rw [List.filter_eq_self]
    intro x hx
    have h1 := hlmem x hx
    have : x ≠ i := by
      rcases List.mem_append.mp hi with h | h
      · have := hD0mem i h; omega
      · rw [List.mem_singleton] at h; omega
    simpa using this
  have hav : ∀ i ∈ D0 ++ [t + 1], (d ((L ++ (D0 ++ [t + 1])).filter fun item => decide (item ≠ i ∧ item ≠ t + 1))).isSome := by
    intro i hi
    rw [hkey, List.filter_append, hfiltL i hi]
    apply avail
    apply avail_of_succ (List.filter_sublist.trans hD0sub)
    intro h
    have := (List.mem_filter.mp h).1
    have := hD0mem _ this
    omega
  rw [bandFold (t := t + 1) d w sound _ _ hav]
  simp only [bind, Except.bind, pure, Except.pure, zero_add]
  -- the value is right
  have hnd : (L ++ D0).Nodup := by
    rw [List.nodup_append]
    refine ⟨by rw [hL, bandedLower]; exact List.nodup_range', hD0.nodup List.nodup_range', ?_⟩
    rintro x hx y hy rfl
    have := hlmem x hx; have := hD0mem x hy; omega
  have hval : ((D0 ++ [t + 1]).map fun i => A (i - 1) (t + 1 - 1) *
      bandVal A w ((L ++ (D0 ++ [t + 1])).filter fun item => decide (item ≠ i ∧ item ≠ t + 1))).sum
      = bandVal A w (L ++ (D0 ++ [t + 1])) := by
    simp only [hkey]
    unfold bandVal
    rw [lh_perm _ _ (bandW_symm A w) (l := L ++ (D0 ++ [t + 1])) (l' := (t + 1) :: (L ++ D0))]
    · rw [lh_cons, eSum_filter _ _ hnd, List.map_append, List.map_append, List.sum_append, List.sum_append]
      have h0 : (L.map fun y => bandW A w (t + 1) y * lh (fun i => A (i - 1) (i - 1)) (bandW A w) ((L ++ D0).filter (· ≠ y))).sum
          = 0 := by
        apply List.sum_eq_zero
        intro z hz
        obtain ⟨y, hy, rfl⟩ := List.mem_map.mp hz
        have h1 := hlmem y hy
        have : bandW A w (t + 1) y = 0 := by
          unfold bandW
          rw [if_neg]
          rw [max_eq_left (by omega), min_eq_right (by omega)]; omega
        rw [this, zero_mul]
      rw [h0, zero_add, add_comm]
      congr 1
      · simp only [List.map_cons, List.map_nil, List.sum_singleton]
        congr 2
        rw [List.filter_eq_self]
        intro x hx
        have : x ≠ t + 1 := by
          rcases List.mem_append.mp hx with h | h
          · have := hlmem x h; omega
          · have := hD0mem x h; omega
        simpa using this
      · congr 1
        apply List.map_congr_left
        intro y hy
        have h1 := hD0mem y hy
        congr 1
        unfold bandW
        rw [max_eq_left (by omega), min_eq_right (by omega), if_pos (by omega)]
    · rw [← List.append_assoc]
      exact List.perm_append_singleton _ _
  rw [hval]
  refine ⟨_, rfl, ?_, ?_, by simp⟩
  · intro key v hv
    split at hv
    · rename_i h; subst h; simpa using hv.symm
    · exact sound key v hv
  · intro key hk
    split
    · rfl
    · exact hk

theorem bandedOuter_inv {A : ℕ → ℕ → K} {w t : ℕ} {d : TupleDict K} (h : BandInv A w t d) :
    ∃ d', bandedOuter A w d (t + 1) = .ok d' ∧ BandInv A w (t + 1) d' := by
  unfold bandedOuter
  have main : ∀ (l : List (List ℕ)) (d : TupleDict K), (∀ D ∈ l, D.Sublist (bandedDiff w (t + 1))) →
      (∀ key v, d key = some v → v = bandVal A w key) → (∀ key, Avail w t key → (d key).isSome) →
      ∃ d', l.foldlM (bandedStep A (t + 1) (bandedLower w (t + 1))) d = .ok d' ∧
        (∀ key v, d' key = some v → v = bandVal A w key) ∧
        (∀ key, (d key).isSome → (d' key).isSome) ∧ ∀ D ∈ l, (d' (bandedLower w (t + 1) ++ D)).isSome := by
    intro l
    induction l with
    | nil => intro d _ h1 _; exact ⟨d, rfl, h1, fun _ h => h, by simp⟩
    | cons D l ih =>
      intro d hl h1 h2
      obtain ⟨d1, e1, s1, m1, p1⟩ := bandedStep_new d h1 h2 D (hl D (by simp))
      obtain ⟨d2, e2, s2, m2, p2⟩ := ih d1 (fun D hD => hl D (by simp [hD])) s1 (fun key hk => m1 key (h2 key hk))
      refine ⟨d2, ?_, s2, fun key hk => m2 key (m1 key hk), ?_⟩
      · rw [List.foldlM_cons, e1]; exact e2
      · intro D' hD'
        rcases List.mem_cons.mp hD' with rfl | hD'
        · exact m2 _ p1
        · exact p2 D' hD'
  obtain ⟨d', e, s, _, p⟩ := main _ d (fun D hD => mem_powerset'.mp hD) h.sound h.avail
  refine ⟨d', e, s, ?_⟩
  rintro key ⟨D, hD, rfl⟩
  exact p D (mem_powerset'.mpr hD)

theorem banded_run {A : ℕ → ℕ → K} {w : ℕ} (n t : ℕ) (d : TupleDict K) (h : BandInv A w t d) :
    ∃ d', (List.range' (t + 1) n).foldlM (bandedOuter A w) d = .ok d' ∧ BandInv A w (t + n) d' := by
  induction n generalizing t d with
  | zero => exact ⟨d, rfl, h⟩
  | succ n ih =>
    obtain ⟨d1, e1, i1⟩ := bandedOuter_inv h
    obtain ⟨d2, e2, i2⟩ := ih (t + 1) d1 i1
    refine ⟨d2, ?_, ?_⟩
    · rw [List.range'_succ, List.foldlM_cons, e1]; exact e2
    · rwa [show t + (n + 1) = t + 1 + n by omega]

theorem banded_final (A : ℕ → ℕ → K) (w n : ℕ) :
    ∃ d, (List.range' 1 n).foldlM (bandedOuter A w)
        (fun key => if key = [] then some 1 else if key = [1] then some (A 0 0) else none) = .ok d ∧
      d (List.range' 1 n) = some (bandVal A w (List.range' 1 n)) := by
  have h0 : BandInv A w 0 (fun key => if key = [] then some 1 else if key = [1] then some (A 0 0) else none) := by
    constructor
    · intro key v hv
      split at hv
      · rename_i h; subst h; simpa [bandVal] using hv.symm
      · split at hv
        · rename_i h; subst h
          have : v = A 0 0 := by simpa using hv.symm
          simp [bandVal, lh_cons, this]
        · simp at hv
    · rintro key ⟨D, hD, rfl⟩
      rw [bandedDiff_eq] at hD
      simp only [Nat.zero_sub, List.range'_zero, List.sublist_nil] at hD
      simp [hD, bandedLower]
  obtain ⟨d, e, i⟩ := banded_run n 0 _ h0
  rw [zero_add] at e i
  refine ⟨d, e, ?_⟩
  have hs : (d (List.range' 1 n)).isSome := by
    apply i.avail
    refine ⟨bandedDiff w n, List.Sublist.refl _, ?_⟩
    rw [bandedDiff_eq, bandedLower, Nat.add_comm (n - 2 * w - 1) 1, List.range'_append_1]
    congr 1; omega
  obtain ⟨v, hv⟩ := Option.isSome_iff_exists.mp hs
  rw [hv, i.sound _ _ hv]

/-- the value as a matrix quantity -/
theorem bandVal_range (A : ℕ → ℕ → K) (w n : ℕ) :
    bandVal A w (List.range' 1 n) = Spec.lhaf (Matrix.of fun i j : Fin n =>
      if (i : ℕ) ≤ j + 2 * w ∧ (j : ℕ) ≤ i + 2 * w then A i j else 0) := by
  rw [spec_lhaf_eq]
  have e : List.range' 1 n = (List.finRange n).map fun i : Fin n => (i : ℕ) + 1 := by
    rw [List.range'_eq_map_range, ← List.map_coe_finRange_eq_range, List.map_map]
    apply List.map_congr_left; intro i _; simp [Nat.add_comm]
  rw [e, bandVal, lh_map]
  have aux : ∀ l : List (Fin n), l.Pairwise (· < ·) →
      lh ((fun i => A (i - 1) (i - 1)) ∘ fun i : Fin n => (i : ℕ) + 1)
        (fun i j => bandW A w ((i : ℕ) + 1) ((j : ℕ) + 1)) l
      = lh (fun i => (Matrix.of fun i j : Fin n => if (i : ℕ) ≤ j + 2 * w ∧ (j : ℕ) ≤ i + 2 * w then A i j else 0) i i)
        (fun i j => (Matrix.of fun i j : Fin n => if (i : ℕ) ≤ j + 2 * w ∧ (j : ℕ) ≤ i + 2 * w then A i j else 0) i j) l := by
    intro l hl
    have hinv := lh_eq_invSum (K := K)
      (fun i j : Fin n => if i ≤ j then bandW A w ((i : ℕ) + 1) ((j : ℕ) + 1) else
        (Matrix.of fun i j : Fin n => if (i : ℕ) ≤ j + 2 * w ∧ (j : ℕ) ≤ i + 2 * w then A i j else 0) i j) l hl
    have h1 := lh_eq_invSum (K := K) (fun i j : Fin n => bandW A w ((i : ℕ) + 1) ((j : ℕ) + 1)) l hl
    have h2 := lh_eq_invSum (K := K)
      (fun i j : Fin n => (Matrix.of fun i j : Fin n => if (i : ℕ) ≤ j + 2 * w ∧ (j : ℕ) ≤ i + 2 * w then A i j else 0) i j) l hl
    refine Eq.trans ?_ h2.symm
    refine Eq.trans (lh_congr (fun i _ => ?_) fun _ _ _ _ => rfl) (h1.trans ?_)
    · simp [bandW]
    · unfold invSum
      refine Finset.sum_congr rfl fun σ _ => ?_
      unfold invWt
      refine Finset.prod_congr rfl fun i _ => ?_
      split
      · rename_i h
        have h' : (i : ℕ) ≤ (σ i : ℕ) := h
        simp only [bandW, Matrix.of_apply]
        rw [max_eq_right (by omega), min_eq_left (by omega)]
        by_cases hc : (σ i : ℕ) + 1 - ((i : ℕ) + 1) ≤ 2 * w
        · rw [if_pos hc, if_pos (by omega)]; simp
        · rw [if_neg hc, if_neg (by omega)]
      · rfl
  exact aux _ (List.pairwise_lt_finRange n)

/-! ### sparse -/

theorem lh_perm_mem (D : ℕ → K) (A : ℕ → ℕ → K) {l l' : List ℕ} (hA : ∀ i ∈ l, ∀ j ∈ l, A i j = A j i)
    (hp : l.Perm l') : lh D A l = lh D A l' := by
  have h1 : lh D A l = lh D (fun i j => if i ∈ l ∧ j ∈ l then A i j else 0) l :=
    lh_congr (fun _ _ => rfl) fun i hi j hj => by simp [hi, hj]
  have h2 : lh D A l' = lh D (fun i j => if i ∈ l ∧ j ∈ l then A i j else 0) l' :=
    lh_congr (fun _ _ => rfl) fun i hi j hj => by simp [hp.mem_iff.mpr hi, hp.mem_iff.mpr hj]
  rw [h1, h2]
  apply lh_perm _ _ _ hp
  intro i j
  by_cases h : i ∈ l ∧ j ∈ l
  · rw [if_pos h, if_pos h.symm, hA i h.1 j h.2]
  · rw [if_neg h, if_neg (fun h' => h h'.symm)]

theorem sparse_val {n : ℕ} {A : ℕ → ℕ → K} (hA : ∀ i < n, ∀ j < n, A i j = A j i) {d : Finset ℕ} {v : K} (h : LhafVal n A d v) :
    (∀ i ∈ d, i < n) → v = lh (fun i => A i i) A (d.sort (· ≤ ·)) := by
  induction h with
  | empty => intro _; simp
  | pop d k hk w hw ih =>
    intro hd
    have hperm : (d.sort (· ≤ ·)).Perm (k :: (d.erase k).sort (· ≤ ·)) := by
      rw [List.perm_ext_iff_of_nodup (Finset.sort_nodup _ _)]
      · intro a; simp only [Finset.mem_sort, List.mem_cons, Finset.mem_erase]
        constructor
        · intro ha; by_cases h : a = k
          · exact Or.inl h
          · exact Or.inr ⟨h, ha⟩
        · rintro (rfl | h)
          · exact hk
          · exact h.2
      · rw [List.nodup_cons]
        exact ⟨by simp, Finset.sort_nodup _ _⟩
    rw [lh_perm_mem _ _ (fun i hi j hj => hA i (hd i (by simpa using hi)) j (hd j (by simpa using hj))) hperm, lh_cons, eSum_nodup _ _ (Finset.sort_nodup _ _), Finset.sort_toFinset]
    have hsub : ∀ i ∈ d.erase k, lh (fun i => A i i) A (((d.erase k).sort (· ≤ ·)).erase i)
        = lh (fun i => A i i) A (((d.erase k).erase i).sort (· ≤ ·)) := by
      intro i hi
      apply lh_perm_mem
      · intro i hi j hj
        have hi := List.mem_of_mem_erase hi
        have hj := List.mem_of_mem_erase hj
        simp only [Finset.mem_sort] at hi hj
        exact hA i (hd i (Finset.mem_of_mem_erase hi)) j (hd j (Finset.mem_of_mem_erase hj))
      rw [List.perm_ext_iff_of_nodup ((Finset.sort_nodup _ _).erase _) (Finset.sort_nodup _ _)]
      intro a
      rw [(Finset.sort_nodup _ _).mem_erase_iff]
      simp
    have hterm : ∀ i ∈ d, A k i ≠ 0 → w i = lh (fun i => A i i) A (((d.erase k).erase i).sort (· ≤ ·)) := by
      intro i hi hne
      exact ih i hi (hd i hi) hne (fun j hj => hd j (Finset.mem_of_mem_erase (Finset.mem_of_mem_erase hj)))
    classical
    have h1 : ∑ i ∈ d.filter (fun i => i < n ∧ A k i ≠ 0), A i k * w i
        = ∑ i ∈ d, A i k * lh (fun i => A i i) A (((d.erase k).erase i).sort (· ≤ ·)) := by
      rw [Finset.sum_filter]
      refine Finset.sum_congr rfl fun i hi => ?_
      by_cases hne : A k i = 0
      · rw [if_neg (by simp [hne]), hA i (hd i hi) k (hd k hk), hne, zero_mul]
      · rw [if_pos ⟨hd i hi, hne⟩, hterm i hi hne]
    refine Eq.trans (by congr!) (h1.trans ?_)
    rw [← Finset.add_sum_erase d _ hk]
    congr 1
    · congr 2
      congr 1
      simp
    · refine Finset.sum_congr rfl fun i hi => ?_
      rw [hsub i hi, hA i (hd i (Finset.mem_of_mem_erase hi)) k (hd k hk)]

theorem sparse_exists (n : ℕ) (A : ℕ → ℕ → K) (pop : Finset ℕ → ℕ) (hpop : ∀ d : Finset ℕ, d.Nonempty → pop d ∈ d)
    (d : Finset ℕ) : ∃ v, LhafVal n A d v := by
  induction hn : d.card using Nat.strong_induction_on generalizing d with
  | _ c ih =>
    rcases d.eq_empty_or_nonempty with rfl | hne
    · exact ⟨1, .empty⟩
    · have : ∀ i, ∃ v, LhafVal n A ((d.erase (pop d)).erase i) v := by
        intro i
        apply ih _ _ _ rfl
        have h1 := Finset.card_erase_lt_of_mem (hpop d hne)
        have h2 := Finset.card_erase_le (s := d.erase (pop d)) (a := i)
        omega
      choose w hw using this
      exact ⟨_, .pop d (pop d) (hpop d hne) w fun i _ _ _ => hw i⟩

end Verif.Model
