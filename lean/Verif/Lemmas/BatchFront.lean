/- `loop_hafnian_batch`: pairing of the fixed modes, the extra edges, and the front end. -/
import Verif.Lemmas.Batch

set_option linter.unusedSectionVars false
set_option linter.unusedSimpArgs false

namespace Verif
open Model

theorem mem_repeatedIndices {reps : List ℕ} {i : ℕ} (hi : i < reps.length) (hpos : 0 < reps.getD i 0) :
    i ∈ Spec.repeatedIndices reps := by
  rw [Spec.repeatedIndices, List.mem_flatMap]
  exact ⟨i, by simpa using hi, by rw [List.mem_replicate]; exact ⟨by omega, rfl⟩⟩

theorem foldl_max_eq (l : List ℕ) (M : ℕ) (hlt : ∀ i ∈ l, i ≤ M) (hM : M ∈ l) : l.foldl max 0 = M := by
  apply le_antisymm
  · have : ∀ (l : List ℕ) (a : ℕ), a ≤ M → (∀ i ∈ l, i ≤ M) → l.foldl max a ≤ M := by
      intro l
      induction l with
      | nil => intro a ha _; simpa
      | cons x xs ih => intro a ha h; exact ih _ (by have := h x (by simp); omega) (fun i hi => h i (by simp [hi]))
    exact this l 0 (Nat.zero_le _) hlt
  · exact foldl_max_le _ _ _ (Or.inl hM)

section mem
variable {edges : List (ℕ × ℕ × ℕ)} (hpos : ∀ p ∈ edges, 0 < p.2.2)

include hpos in
theorem mem_flat_iff (i : ℕ) : i ∈ edges.map (·.1) ++ edges.map (·.2.1) ↔ i ∈ el edges := by
  simp only [el, List.mem_append, List.mem_map, List.mem_flatMap, List.mem_replicate]
  constructor
  · rintro (⟨p, hp, rfl⟩ | ⟨p, hp, rfl⟩)
    · exact ⟨p, hp, Or.inl ⟨(hpos p hp).ne', rfl⟩⟩
    · exact ⟨p, hp, Or.inr ⟨(hpos p hp).ne', rfl⟩⟩
  · rintro ⟨p, hp, (⟨_, rfl⟩ | ⟨_, rfl⟩)⟩
    · exact Or.inl ⟨p, hp, rfl⟩
    · exact Or.inr ⟨p, hp, rfl⟩

end mem

theorem flat_half (edges : List (ℕ × ℕ × ℕ)) :
    (edges.map (·.1) ++ edges.map (·.2.1)).length / 2 = edges.length ∧
    (edges.map (·.1) ++ edges.map (·.2.1)).take edges.length = edges.map (·.1) ∧
    (edges.map (·.1) ++ edges.map (·.2.1)).drop edges.length = edges.map (·.2.1) := by
  refine ⟨by simp; omega, ?_, ?_⟩
  · rw [List.take_append_of_le_length (by simp), List.take_of_length_le (by simp)]
  · rw [List.drop_append_of_le_length (by simp), List.drop_of_length_le (by simp)]; rfl

theorem addBatchEdgesEven_eq (edges : List (ℕ × ℕ × ℕ)) (hpos : ∀ p ∈ edges, 0 < p.2.2) (fx : List ℕ) (hfx : ∀ i < fx.length, 0 < fx.getD i 0)
    (hp : (el edges).Perm (Spec.repeatedIndices fx)) :
    addBatchEdgesEven (edges.map (·.1) ++ edges.map (·.2.1))
      = fx.length :: edges.map (·.1) ++ fx.length :: edges.map (·.2.1) := by
  obtain ⟨h1, h2, h3⟩ := flat_half edges
  unfold addBatchEdgesEven
  by_cases h0 : edges = []
  · subst h0
    have : fx.length = 0 := by
      by_contra h
      have := mem_repeatedIndices (reps := fx) (i := 0) (by omega) (hfx 0 (by omega))
      rw [← hp.mem_iff] at this
      simp [el] at this
    simp [this]
  · have hl : (edges.map (·.1) ++ edges.map (·.2.1)).length ≠ 0 := by
      have : edges.length ≠ 0 := by simpa using h0
      simp; omega
    rw [if_neg hl]
    simp only [h1, h2, h3]
    have hm : 0 < fx.length := by
      obtain ⟨p, es, rfl⟩ := List.exists_cons_of_ne_nil h0
      have := el_mem_left hpos (p := p) (by simp)
      rw [hp.mem_iff] at this
      have := repeatedIndices_lt this; omega
    have hmax : (edges.map (·.1) ++ edges.map (·.2.1)).foldl max 0 = fx.length - 1 := by
      apply foldl_max_eq
      · intro i hi
        rw [mem_flat_iff hpos, hp.mem_iff] at hi
        have := repeatedIndices_lt hi; omega
      · rw [mem_flat_iff hpos, hp.mem_iff]
        exact mem_repeatedIndices (by omega) (hfx _ (by omega))
    rw [hmax, show fx.length - 1 + 1 = fx.length by omega]
    simp

theorem addBatchEdgesOdd_eq (edges : List (ℕ × ℕ × ℕ)) (o : ℕ) (hpos : ∀ p ∈ edges, 0 < p.2.2) (fx : List ℕ) (hfx : ∀ i < fx.length, 0 < fx.getD i 0)
    (hp : (el edges ++ [o]).Perm (Spec.repeatedIndices fx)) :
    addBatchEdgesOdd (edges.map (·.1) ++ edges.map (·.2.1)) o
      = fx.length :: o :: edges.map (·.1) ++ fx.length :: fx.length :: edges.map (·.2.1) := by
  obtain ⟨h1, h2, h3⟩ := flat_half edges
  have ho : o < fx.length := repeatedIndices_lt (hp.mem_iff.1 (by simp))
  unfold addBatchEdgesOdd
  by_cases h0 : edges = []
  · subst h0
    have : fx.length = 1 := by
      have hl := hp.length_eq
      by_contra h
      have a := mem_repeatedIndices (reps := fx) (i := 0) (by omega) (hfx 0 (by omega))
      have b := mem_repeatedIndices (reps := fx) (i := 1) (by omega) (hfx 1 (by omega))
      rw [← hp.mem_iff] at a b
      simp [el] at a b
      omega
    simp [this]
  · have hl : (edges.map (·.1) ++ edges.map (·.2.1)).length ≠ 0 := by
      have : edges.length ≠ 0 := by simpa using h0
      simp; omega
    rw [if_neg hl]
    simp only [h1, h2, h3]
    have hmax : max ((edges.map (·.1) ++ edges.map (·.2.1)).foldl max 0) o = fx.length - 1 := by
      have e : max ((edges.map (·.1) ++ edges.map (·.2.1)).foldl max 0) o = (edges.map (·.1) ++ edges.map (·.2.1) ++ [o]).foldl max 0 := by
        rw [List.foldl_append (l' := [o])]; rfl
      rw [e]
      apply foldl_max_eq
      · intro i hi
        rw [List.mem_append, mem_flat_iff hpos, ← List.mem_append, hp.mem_iff] at hi
        have := repeatedIndices_lt hi; omega
      · rw [List.mem_append, mem_flat_iff hpos, ← List.mem_append, hp.mem_iff]
        exact mem_repeatedIndices (by omega) (hfx _ (by omega))
    rw [hmax, show fx.length - 1 + 1 = fx.length by omega]
    simp

variable {K : Type} [Field K] [CharZero K]

theorem erep_cons (p : ℕ × ℕ × ℕ) (edges : List (ℕ × ℕ × ℕ)) :
    (Fin.cons p.2.2 (erep edges) : Fin (edges.length + 1) → ℕ) = erep (p :: edges) := by
  funext e
  refine Fin.cases ?_ (fun e => ?_) e
  · rfl
  · rfl

/-- all end points of the edges are below `n` -/
theorem vlabel_lt' (n : ℕ) {edges : List (ℕ × ℕ × ℕ)} (h : ∀ p ∈ edges, p.1 < n ∧ p.2.1 < n) (o : ℕ)
    (a : Fin edges.length ⊕ Fin edges.length) : vlabel edges o (some a) < n := by
  rcases a with e | e
  · exact (h _ (List.getElem_mem e.2)).1
  · exact (h _ (List.getElem_mem e.2)).2

/-- hypotheses of the sieve theorems for the labelled graph -/
theorem lh_label (n : ℕ) (A : ℕ → ℕ → K) (D : ℕ → K) (hs : ∀ i < n, ∀ j < n, A i j = A j i) (edges : List (ℕ × ℕ × ℕ)) (o : ℕ) (l : List ℕ)
    (hl : ∀ i ∈ l, i < n) :
    ((o :: el edges).Perm l → lh (D ∘ vlabel edges o) (Matrix.of fun a b => A0 n A (vlabel edges o a) (vlabel edges o b)) (none :: edgeList (erep edges)) = lh D A l) ∧
    ((el edges).Perm l → lh (D ∘ vlabel edges o) (Matrix.of fun a b => A0 n A (vlabel edges o a) (vlabel edges o b)) (edgeList (erep edges)) = lh D A l) := by
  constructor
  · intro hp
    have := lh_map D (A0 n A) (vlabel edges o) (none :: edgeList (erep edges))
    rw [List.map_cons, edgeList_label] at this
    have e3 : vlabel edges o none = o := rfl
    rw [e3] at this
    rw [← lh_A0 n D A l hl, ← lh_perm _ _ (A0_symm n A hs) hp, this]
    rfl
  · intro hp
    have := lh_map D (A0 n A) (vlabel edges o) (edgeList (erep edges))
    rw [edgeList_label] at this
    rw [← lh_A0 n D A l hl, ← lh_perm _ _ (A0_symm n A hs) hp, this]
    rfl

theorem batchEven_branch {pt : PowerTrace K} (hpt : PTSpec pt) (A : ℕ → ℕ → K) (D : ℕ → K) (fx : List ℕ)
    (hs : ∀ i < fx.length + 1, ∀ j < fx.length + 1, A i j = A j i) (hfx : ∀ i < fx.length, 0 < fx.getD i 0)
    (edges : List (ℕ × ℕ × ℕ)) (hpos : ∀ p ∈ edges, 0 < p.2.2) (hp : (el edges).Perm (Spec.repeatedIndices fx))
    (bm oc : ℕ) (hoc : oc ≤ 1) (g : Bool) (i : ℕ) (hi : i ≤ 2 * bm + oc) :
    calcBatchEven pt (fun i j => A ((addBatchEdgesEven (edges.map (·.1) ++ edges.map (·.2.1))).getD i 0) ((addBatchEdgesEven (edges.map (·.1) ++ edges.map (·.2.1))).getD j 0))
      (fun i => D ((addBatchEdgesEven (edges.map (·.1) ++ edges.map (·.2.1))).getD i 0)) (edges.map (·.2.2)) bm oc g i
      = lh D A (Spec.repeatedIndices fx ++ List.replicate i fx.length) := by
  set m := fx.length with hm
  rw [addBatchEdgesEven_eq edges hpos fx hfx hp, erep_ofFn edges]
  set eb : List (ℕ × ℕ × ℕ) := (m, m, i / 2) :: edges with heb
  have harr : (m :: edges.map (·.1) ++ m :: edges.map (·.2.1)) = eb.map (·.1) ++ eb.map (·.2.1) := by simp [heb]
  rw [harr]
  have hlt : ∀ p ∈ eb, p.1 < m + 1 ∧ p.2.1 < m + 1 := by
    intro p hp'
    rw [heb, List.mem_cons] at hp'
    rcases hp' with rfl | hp'
    · simp
    · have h1 := repeatedIndices_lt (hp.mem_iff.1 (el_mem_left hpos hp'))
      have h2 := repeatedIndices_lt (hp.mem_iff.1 (el_mem_right hpos hp'))
      omega
  have hA0 : ∀ a b : Fin eb.length ⊕ Fin eb.length, (Matrix.of fun a b => A0 (m + 1) A (vlabel eb m a) (vlabel eb m b)) (some a) (some b)
      = A ((eb.map (·.1) ++ eb.map (·.2.1)).getD (pos a) 0) ((eb.map (·.1) ++ eb.map (·.2.1)).getD (pos b) 0) := by
    intro a b
    simp only [getD_pos eb m]
    simp only [Matrix.of_apply, A0, vlabel_lt' (m + 1) hlt m a, vlabel_lt' (m + 1) hlt m b, and_self, if_true]
  have h0 : (eb.map (·.1) ++ eb.map (·.2.1)).getD 0 0 = m := by simp [heb]
  have := calcBatchEven_eq (E := edges.length)
    (fun i j => A ((eb.map (·.1) ++ eb.map (·.2.1)).getD i 0) ((eb.map (·.1) ++ eb.map (·.2.1)).getD j 0))
    (fun i => D ((eb.map (·.1) ++ eb.map (·.2.1)).getD i 0))
    (Matrix.of fun a b => A0 (m + 1) A (vlabel eb m a) (vlabel eb m b)) hA0 (fun a b => A0_symm _ A hs _ _)
    (D ∘ vlabel eb m) (fun a => by simp only [Function.comp_apply]; rw [← getD_pos eb m a])
    (by show D m = D _; rw [h0])
    (fun a => by
      have e := getD_pos eb m a
      have e' : (eb.map (·.1) ++ eb.map (·.2.1)).getD (pos (E := edges.length + 1) a) 0 = vlabel eb m (some a) := e
      rw [h0, e']
      have e3 : vlabel eb m none = m := rfl
      simp only [Matrix.of_apply, A0, e3, vlabel_lt' (m + 1) hlt m a, Nat.lt_succ_self, and_self, if_true])
    hpt (erep edges) bm oc hoc g i hi
  rw [this]
  have her : (Fin.cons (i / 2) (erep edges) : Fin (edges.length + 1) → ℕ) = erep eb := erep_cons (m, m, i / 2) edges
  rw [her]
  have hl : ∀ x ∈ Spec.repeatedIndices fx ++ List.replicate i m, x < m + 1 := by
    intro x hx
    rw [List.mem_append, List.mem_replicate] at hx
    rcases hx with hx | hx
    · have := repeatedIndices_lt hx; omega
    · omega
  obtain ⟨l1, l2⟩ := lh_label (m + 1) A D hs eb m (Spec.repeatedIndices fx ++ List.replicate i m) hl
  have hel : el eb = List.replicate (i / 2) m ++ List.replicate (i / 2) m ++ el edges := by simp [heb, el]
  split
  · rename_i hpar
    apply l2
    rw [hel, ← List.replicate_add, show i / 2 + i / 2 = i by omega]
    exact List.perm_append_comm.trans (hp.append_right _)
  · rename_i hpar
    apply l1
    have e : m :: el eb = List.replicate i m ++ el edges := by
      rw [hel, ← List.replicate_add, ← List.cons_append, ← List.replicate_succ, show i / 2 + i / 2 + 1 = i by omega]
    rw [e]
    exact List.perm_append_comm.trans (hp.append_right _)

theorem batchOdd_branch {pt : PowerTrace K} (hpt : PTSpec pt) (A : ℕ → ℕ → K) (D : ℕ → K) (fx : List ℕ)
    (hs : ∀ i < fx.length + 1, ∀ j < fx.length + 1, A i j = A j i) (hfx : ∀ i < fx.length, 0 < fx.getD i 0)
    (edges : List (ℕ × ℕ × ℕ)) (o : ℕ) (hpos : ∀ p ∈ edges, 0 < p.2.2) (hp : (el edges ++ [o]).Perm (Spec.repeatedIndices fx))
    (bm ec : ℕ) (hec : ec ≤ 1) (g : Bool) (i : ℕ) (hi : i ≤ 2 * bm + ec + 1) :
    calcBatchOdd pt (fun i j => A ((addBatchEdgesOdd (edges.map (·.1) ++ edges.map (·.2.1)) o).getD i 0) ((addBatchEdgesOdd (edges.map (·.1) ++ edges.map (·.2.1)) o).getD j 0))
      (fun i => D ((addBatchEdgesOdd (edges.map (·.1) ++ edges.map (·.2.1)) o).getD i 0)) (edges.map (·.2.2)) bm ec g i
      = lh D A (Spec.repeatedIndices fx ++ List.replicate i fx.length) := by
  set m := fx.length with hm
  rw [addBatchEdgesOdd_eq edges o hpos fx hfx hp, erep_ofFn edges]
  have ho : o < m := repeatedIndices_lt (hp.mem_iff.1 (by simp))
  set b : ℕ := (i - 1) / 2 with hb
  set c : ℕ := if i = 0 then 0 else 1 with hc
  set n0 : ℕ := if i = 0 then o else m with hn0
  set eb : List (ℕ × ℕ × ℕ) := (m, m, b) :: (o, m, c) :: edges with heb
  have harr : (m :: o :: edges.map (·.1) ++ m :: m :: edges.map (·.2.1)) = eb.map (·.1) ++ eb.map (·.2.1) := by simp [heb]
  rw [harr]
  have hlt : ∀ p ∈ eb, p.1 < m + 1 ∧ p.2.1 < m + 1 := by
    intro p hp'
    rw [heb, List.mem_cons, List.mem_cons] at hp'
    rcases hp' with rfl | rfl | hp'
    · simp
    · simp; omega
    · have h1 := repeatedIndices_lt (hp.mem_iff.1 (List.mem_append_left _ (el_mem_left hpos hp')))
      have h2 := repeatedIndices_lt (hp.mem_iff.1 (List.mem_append_left _ (el_mem_right hpos hp')))
      omega
  have hA0 : ∀ a b : Fin eb.length ⊕ Fin eb.length, (Matrix.of fun a b => A0 (m + 1) A (vlabel eb n0 a) (vlabel eb n0 b)) (some a) (some b)
      = A ((eb.map (·.1) ++ eb.map (·.2.1)).getD (pos a) 0) ((eb.map (·.1) ++ eb.map (·.2.1)).getD (pos b) 0) := by
    intro a b
    simp only [getD_pos eb n0]
    simp only [Matrix.of_apply, A0, vlabel_lt' (m + 1) hlt n0 a, vlabel_lt' (m + 1) hlt n0 b, and_self, if_true]
  have h0 : (eb.map (·.1) ++ eb.map (·.2.1)).getD 0 0 = m := by simp [heb]
  have h1 : (eb.map (·.1) ++ eb.map (·.2.1)).getD 1 0 = o := by simp [heb]
  have hn0lt : n0 < m + 1 := by simp only [hn0]; split <;> omega
  have hVg : ∀ a : Fin eb.length ⊕ Fin eb.length, (Matrix.of fun a b => A0 (m + 1) A (vlabel eb n0 a) (vlabel eb n0 b)) none (some a)
      = A n0 ((eb.map (·.1) ++ eb.map (·.2.1)).getD (pos a) 0) := by
    intro a
    rw [getD_pos eb n0 a]
    have e3 : vlabel eb n0 none = n0 := rfl
    simp only [Matrix.of_apply, A0, e3, vlabel_lt' (m + 1) hlt n0 a, hn0lt, and_self, if_true]
  have hl : ∀ x ∈ Spec.repeatedIndices fx ++ List.replicate i m, x < m + 1 := by
    intro x hx
    rw [List.mem_append, List.mem_replicate] at hx
    rcases hx with hx | hx
    · have := repeatedIndices_lt hx; omega
    · omega
  obtain ⟨l1, l2⟩ := lh_label (m + 1) A D hs eb n0 (Spec.repeatedIndices fx ++ List.replicate i m) hl
  have hel : el eb = List.replicate b m ++ List.replicate b m ++ (List.replicate c o ++ List.replicate c m ++ el edges) := by simp [heb, el]
  have her : (Fin.cons b (Fin.cons c (erep edges) : Fin (edges.length + 1) → ℕ) : Fin (edges.length + 2) → ℕ) = erep eb := by
    have e1 : (Fin.cons c (erep edges) : Fin (edges.length + 1) → ℕ) = erep ((o, m, c) :: edges) := erep_cons (o, m, c) edges
    rw [e1]
    exact erep_cons (m, m, b) ((o, m, c) :: edges)
  by_cases hi0 : i = 0
  · subst hi0
    have := calcBatchOdd_zero (E := edges.length)
      (fun i j => A ((eb.map (·.1) ++ eb.map (·.2.1)).getD i 0) ((eb.map (·.1) ++ eb.map (·.2.1)).getD j 0))
      (fun i => D ((eb.map (·.1) ++ eb.map (·.2.1)).getD i 0))
      (Matrix.of fun a b => A0 (m + 1) A (vlabel eb n0 a) (vlabel eb n0 b)) hA0 (fun a b => A0_symm _ A hs _ _)
      (D ∘ vlabel eb n0) (fun a => by simp only [Function.comp_apply]; rw [← getD_pos eb n0 a])
      (by show D n0 = D _; rw [h1]; simp [hn0])
      (fun a => by simp only [h1]; refine (hVg a).trans ?_; simp [hn0]) hpt (erep edges) bm ec g
    rw [this]
    have her0 : (Fin.cons 0 (Fin.cons 0 (erep edges) : Fin (edges.length + 1) → ℕ) : Fin (edges.length + 2) → ℕ) = erep eb := by
      rw [← her]; simp [hb, hc]
    rw [her0]
    apply l1
    rw [hel]
    simp only [hb, hc, hn0, if_true, List.replicate_zero, List.nil_append, List.append_nil, Nat.zero_sub, Nat.zero_div]
    exact (List.perm_append_singleton o (el edges)).symm.trans hp
  · have := calcBatchOdd_eq (E := edges.length)
      (fun i j => A ((eb.map (·.1) ++ eb.map (·.2.1)).getD i 0) ((eb.map (·.1) ++ eb.map (·.2.1)).getD j 0))
      (fun i => D ((eb.map (·.1) ++ eb.map (·.2.1)).getD i 0))
      (Matrix.of fun a b => A0 (m + 1) A (vlabel eb n0 a) (vlabel eb n0 b)) hA0 (fun a b => A0_symm _ A hs _ _)
      (D ∘ vlabel eb n0) (fun a => by simp only [Function.comp_apply]; rw [← getD_pos eb n0 a])
      (by show D n0 = D _; rw [h0]; simp [hn0, hi0])
      (fun a => by simp only [h0]; refine (hVg a).trans ?_; simp [hn0, hi0]) hpt (erep edges) bm ec hec g i (by omega) hi
    rw [this]
    have hc1 : c = 1 := by simp [hc, hi0]
    have hnm : n0 = m := by simp [hn0, hi0]
    rw [hc1] at her hel
    rw [her]
    have hmo : ∀ (j : ℕ), (List.replicate j m ++ (o :: m :: el edges)).Perm (Spec.repeatedIndices fx ++ List.replicate (j + 1) m) := by
      intro j
      rw [List.replicate_succ]
      refine List.Perm.trans ?_ (hp.append_right _)
      refine List.Perm.trans List.perm_append_comm ?_
      have : (o :: m :: el edges ++ List.replicate j m).Perm (el edges ++ [o] ++ (m :: List.replicate j m)) := by
        have e : el edges ++ [o] ++ (m :: List.replicate j m) = el edges ++ (o :: m :: List.replicate j m) := by simp
        rw [e]
        have e2 : o :: m :: el edges ++ List.replicate j m = ([o, m] ++ el edges) ++ List.replicate j m := by simp
        have e3 : el edges ++ (o :: m :: List.replicate j m) = (el edges ++ [o, m]) ++ List.replicate j m := by simp
        rw [e2, e3]
        exact List.perm_append_comm.append_right _
      exact this
    split
    · rename_i hpar
      apply l2
      rw [hel]
      have := hmo (b + b)
      rw [List.replicate_add, show b + b + 1 = i by omega] at this
      simpa using this
    · rename_i hpar
      apply l1
      rw [hel, hnm]
      have := hmo (b + b + 1)
      rw [List.replicate_succ, List.replicate_add, show b + b + 1 + 1 = i by omega] at this
      simpa using this

/-! ### removing the empty modes -/

theorem batchNz_eq (fixed : List ℕ) :
    batchNz fixed = ((List.range fixed.length).filter fun i => fixed.getD i 0 ≠ 0) ++ [fixed.length] := by
  unfold batchNz
  rw [List.range_succ, List.filter_append]
  congr 1
  · apply List.filter_congr
    intro i hi
    have hi : i < fixed.length := by simpa using hi
    simp [List.getD_eq_getElem?_getD, List.getElem?_append_left hi]
  · simp [List.getD_eq_getElem?_getD]

theorem repeatedIndices_nz (fixed : List ℕ) :
    (Spec.repeatedIndices (((List.range fixed.length).filter fun i => fixed.getD i 0 ≠ 0).map fun i => fixed.getD i 0)).map
      (fun i => ((List.range fixed.length).filter fun i => fixed.getD i 0 ≠ 0).getD i 0) = Spec.repeatedIndices fixed := by
  set nz := (List.range fixed.length).filter fun i => fixed.getD i 0 ≠ 0 with hnz
  have h1 : (Spec.repeatedIndices (nz.map fun i => fixed.getD i 0)).map (fun i => nz.getD i 0)
      = nz.flatMap fun i => List.replicate (fixed.getD i 0) i := by
    rw [Spec.repeatedIndices, List.map_flatMap, List.length_map]
    have : nz = (List.range nz.length).map fun i => nz.getD i 0 := by
      apply List.ext_getElem
      · simp
      · intro i h1 h2; simp [List.getD_eq_getElem?_getD, h1]
    conv_rhs => rw [this, List.flatMap_map]
    apply List.flatMap_congr
    intro i hi
    have hi : i < nz.length := by simpa using hi
    rw [List.map_replicate]
    congr 1
    simp [List.getD_eq_getElem?_getD, hi]
  rw [h1, Spec.repeatedIndices, hnz]
  have : ∀ l : List ℕ, (l.filter fun i => fixed.getD i 0 ≠ 0).flatMap (fun i => List.replicate (fixed.getD i 0) i)
      = l.flatMap fun i => List.replicate (fixed.getD i 0) i := by
    intro l
    induction l with
    | nil => rfl
    | cons x xs ih =>
      rw [List.filter_cons, List.flatMap_cons]
      by_cases h : fixed.getD x 0 = 0
      · simp only [h, ne_eq, not_true_eq_false, decide_false, Bool.false_eq_true, if_false, List.replicate_zero, List.nil_append]; exact ih
      · simp only [ne_eq, h, not_false_eq_true, decide_true, if_true, List.flatMap_cons]
        rw [← ih]
  exact this _

theorem repeatedIndices_snoc (fixed : List ℕ) (k : ℕ) :
    Spec.repeatedIndices (fixed ++ [k]) = Spec.repeatedIndices fixed ++ List.replicate k fixed.length := by
  rw [Spec.repeatedIndices, Spec.repeatedIndices, List.length_append, List.length_singleton, List.range_succ, List.flatMap_append]
  congr 1
  · apply List.flatMap_congr
    intro i hi
    have hi : i < fixed.length := by simpa using hi
    simp [List.getD_eq_getElem?_getD, List.getElem?_append_left hi]
  · simp [List.getD_eq_getElem?_getD]

end Verif
