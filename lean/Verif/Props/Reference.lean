/-
Properties C03, C04: the reference hafnian and the matching iterators; C42: memoisation.
-/
import Verif.Lemmas.RefMatch
import Verif.Lemmas.HafFront
import Verif.Spec.MatchingSets
import Mathlib.Data.Rat.Defs
import Mathlib.Tactic.NormNum

namespace Verif.Props

open Verif Verif.Model Verif.Model.Reference

set_option linter.unusedSectionVars false
set_option linter.unusedSimpArgs false

variable {K : Type} [Field K]

private theorem foldlM_prod (M : ℕ → ℕ → K) (l : List (List ℕ)) (h : ∀ t ∈ l, ∃ i j, t = [i, j]) (r : K) :
    l.foldlM (fun r j => (idx2 M j).map (r * ·)) r
      = .ok (r * (l.map fun t => M (t.getD 0 0) (t.getD 1 0)).prod) := by
  induction l generalizing r with
  | nil => simp [pure, Except.pure]
  | cons t l ih =>
    obtain ⟨i, j, rfl⟩ := h t (by simp)
    rw [List.foldlM_cons]
    change List.foldlM _ (r * M i j) l = _
    rw [ih (fun t ht => h t (by simp [ht]))]
    simp [mul_assoc]

private theorem foldlM_sum (M : ℕ → ℕ → K) (L : List (List (List ℕ))) (h : ∀ l ∈ L, ∀ t ∈ l, ∃ i j, t = [i, j])
    (r : K) : L.foldlM (fun tot i => (matchProd M i).map (tot + ·)) r
      = .ok (r + (L.map fun l => (l.map fun t => M (t.getD 0 0) (t.getD 1 0)).prod).sum) := by
  induction L generalizing r with
  | nil => simp [pure, Except.pure]
  | cons l L ih =>
    rw [List.foldlM_cons, matchProd, foldlM_prod M l (h l (by simp))]
    rw [one_mul]
    change List.foldlM _ (r + (l.map fun t => M (t.getD 0 0) (t.getD 1 0)).prod) L = _
    rw [ih (fun t ht => h t (by simp [ht]))]
    simp [add_assoc]

private theorem mapM_ok {α β : Type} (l : List α) (f : α → Except PyErr β) (g : α → β)
    (h : ∀ a ∈ l, f a = .ok (g a)) : l.mapM f = .ok (l.map g) := by
  induction l with
  | nil => rfl
  | cons a l ih =>
    rw [List.mapM_cons, h a (by simp), ih (fun b hb => h b (by simp [hb]))]
    rfl

private theorem spm_eq (s : List ℕ) (hs : 3 ≤ s.length) :
    spm s = .ok ((N true true s).map fun l => l.map cloneIfSingle) := by
  unfold spm
  rw [partitions_eq s true true hs, mapM_ok _ _ (fun p => match p with
    | .nested l => l.map cloneIfSingle
    | .bare _ => [])]
  · rw [List.map_map]; rfl
  · intro a ha
    obtain ⟨l, _, rfl⟩ := List.mem_map.mp ha
    rfl

private theorem clone_pair {b c : Bool} {s : List ℕ} {l} (hl : l ∈ N b c s) :
    ∀ t ∈ l.map cloneIfSingle, ∃ i j, t = [i, j] := by
  intro t ht
  obtain ⟨u, hu, rfl⟩ := List.mem_map.mp ht
  rcases N_cells b c s l hl u hu with ⟨_, x, rfl⟩ | ⟨_, x, y, rfl⟩
  · exact ⟨x, x, rfl⟩
  · exact ⟨x, y, rfl⟩

private theorem lh_range {n : ℕ} (M : Matrix (Fin n) (Fin n) K) (junk : ℕ → ℕ → K) :
    lh (fun i => ofMatrix M junk i i) (ofMatrix M junk) (List.range n) = Spec.lhaf M := by
  rw [spec_lhaf_eq, ← List.map_coe_finRange_eq_range, lh_map]
  apply lh_congr <;> intros <;> simp [ofMatrix]

private theorem lh_range0 {n : ℕ} (M : Matrix (Fin n) (Fin n) K) (junk : ℕ → ℕ → K) :
    lh (fun _ => 0) (ofMatrix M junk) (List.range n) = Spec.haf M := by
  rw [spec_haf_eq, ← List.map_coe_finRange_eq_range, lh_map]
  apply lh_congr <;> intros <;> simp [ofMatrix]

/-- **C03** For each square matrix, of any size and not necessarily symmetric, `reference.hafnian(M, loop)` is the sum
over perfect matchings (with loops: over matchings with loops) of the product of the entries above (on) the diagonal.
For odd sizes without loops there is no perfect matching, so the value is `0` (`reference_hafnian_odd`). -/
theorem reference_hafnian_correct {n : ℕ} (M : Matrix (Fin n) (Fin n) K) (junk : ℕ → ℕ → K) (loop : Bool) :
    Reference.hafnian n n (ofMatrix M junk) loop = .ok (if loop then Spec.lhaf M else Spec.haf M) := by
  rw [← lh_range M junk, ← lh_range0 M junk]
  generalize ofMatrix M junk = A
  unfold Reference.hafnian
  rw [if_neg (by simp)]
  rcases n with _ | _ | _ | n
  · cases loop <;> simp
  · cases loop <;> simp [List.range_succ, lh_cons, eSum_cons]
  · cases loop <;> simp [List.range_succ, lh_cons, eSum_cons, add_comm]
  · rw [if_neg (by omega), if_neg (by omega), if_neg (by omega)]
    have h3 : 3 ≤ (List.range (n + 3)).length := by simp
    cases loop
    · simp only [Bool.false_eq_true, if_false]
      rw [pmp, partitions_eq _ _ _ h3, mapM_ok _ _ (fun p => match p with
        | .nested l => l
        | .bare _ => [])]
      · simp only [bind, Except.bind]
        rw [List.map_map, foldlM_sum]
        · rw [zero_add]
          have := N_sum false true (fun _ => (0 : K)) A (List.range (n + 3))
          simp only [Bool.false_eq_true, if_false, if_true] at this
          rw [← this]
          congr 2
          rw [List.map_map]
          apply List.map_congr_left
          intro l hl
          simp only [Function.comp]
          congr 1
          apply List.map_congr_left
          intro t ht
          rcases N_cells _ _ _ l hl t ht with ⟨h, -⟩ | ⟨_, x, y, rfl⟩
          · simp at h
          · simp [cellWt]
        · intro l hl t ht
          obtain ⟨m, hm, rfl⟩ := List.mem_map.mp hl
          rcases N_cells _ _ _ m hm t ht with ⟨h, -⟩ | ⟨_, x, y, rfl⟩
          · simp at h
          · exact ⟨x, y, rfl⟩
      · intro a ha
        obtain ⟨l, _, rfl⟩ := List.mem_map.mp ha
        rfl
    · simp only [if_true]
      rw [spm_eq _ h3]
      simp only [bind, Except.bind]
      rw [foldlM_sum]
      · rw [zero_add]
        have := N_sum true true (fun i => A i i) A (List.range (n + 3))
        simp only [if_true] at this
        rw [← this]
        congr 2
        rw [List.map_map]
        apply List.map_congr_left
        intro l hl
        simp only [Function.comp, List.map_map]
        congr 1
        apply List.map_congr_left
        intro t ht
        rcases N_cells _ _ _ l hl t ht with ⟨_, x, rfl⟩ | ⟨_, x, y, rfl⟩
        · simp [cellWt, cloneIfSingle]
        · simp [cellWt, cloneIfSingle]
      · intro l hl
        obtain ⟨m, hm, rfl⟩ := List.mem_map.mp hl
        exact clone_pair hm

/-- **C03** odd sizes without loops give `0`. -/
theorem reference_hafnian_odd {n : ℕ} (M : Matrix (Fin n) (Fin n) K) (junk : ℕ → ℕ → K) (hn : n % 2 = 1) :
    Reference.hafnian n n (ofMatrix M junk) false = .ok 0 := by
  rw [reference_hafnian_correct]
  simp only [Bool.false_eq_true, if_false]
  rw [spec_haf_eq, lh_odd_zero]
  simpa using hn

/-- **C03** a non-square array raises `ValueError`. -/
theorem reference_hafnian_raises (rows cols : ℕ) (M : ℕ → ℕ → K) (loop : Bool) (h : rows ≠ cols) :
    Reference.hafnian rows cols M loop = .error .valueError := by
  simp [Reference.hafnian, h]

/-- a concrete case: the matrix with entries `i + 2 j` on four vertices -/
example : ∃ M : Matrix (Fin 4) (Fin 4) ℚ, Reference.hafnian 4 4 (ofMatrix M fun _ _ => 7) false = .ok (Spec.haf M)
    ∧ M 0 1 ≠ 0 :=
  ⟨Matrix.of fun i j => (i : ℚ) + 2 * j, reference_hafnian_correct _ _ _, by simp⟩

/-! ### C04 -/

private theorem tupleEdges_pairs {s : List ℕ} {l : List (List ℕ)} (hl : l ∈ N false true s) :
    l.map Spec.tupleEdge = l.map cellEdge := by
  apply List.map_congr_left
  intro t ht
  rcases N_cells _ _ _ l hl t ht with ⟨h, -⟩ | ⟨_, x, y, rfl⟩
  · simp at h
  · rfl

private theorem tupleEdges_clone {b c : Bool} {s : List ℕ} {l : List (List ℕ)} (hl : l ∈ N b c s) :
    (l.map cloneIfSingle).map Spec.tupleEdge = l.map cellEdge := by
  rw [List.map_map]
  apply List.map_congr_left
  intro t ht
  rcases N_cells _ _ _ l hl t ht with ⟨_, x, rfl⟩ | ⟨_, x, y, rfl⟩ <;> rfl

/-- **C04** `pmp(s)` for at least three distinct labels (the documented domain): each yield is a tuple of pairs, no pair twice in a
yield; as edge sets the yields are exactly the perfect matchings of the labels, each once; and there are `(n-1)!!` of them for even `n`, none
for odd `n`. -/
theorem pmp_enumerates (s : List ℕ) (hs : s.Nodup) (h3 : 3 ≤ s.length) :
    ∃ L : List (List (List ℕ)), pmp s = L.map Part.nested ∧
      (∀ l ∈ L, (∀ t ∈ l, ∃ i j, t = [i, j]) ∧ (l.map Spec.tupleEdge).Nodup) ∧
      (L.map Spec.tupleEdges).Nodup ∧
      (∀ E, E ∈ L.map Spec.tupleEdges ↔ Spec.IsPerfectMatching s.toFinset E) ∧
      L.length = if s.length % 2 = 0 then (s.length - 1).doubleFactorial else 0 := by
  have e : (N false true s).map Spec.tupleEdges = (N false true s).map edgeSet := by
    apply List.map_congr_left
    intro l hl
    unfold Spec.tupleEdges edgeSet
    rw [tupleEdges_pairs hl]
  refine ⟨N false true s, partitions_eq s false true h3, ?_, ?_, ?_, N_length_pairs s⟩
  · intro l hl
    refine ⟨?_, ?_⟩
    · intro t ht
      rcases N_cells _ _ _ l hl t ht with ⟨h, -⟩ | ⟨_, x, y, rfl⟩
      · simp at h
      · exact ⟨x, y, rfl⟩
    · rw [tupleEdges_pairs hl]; exact N_edges_nodup _ _ s hs l hl
  · rw [e]; exact N_nodup _ _ s hs
  · intro E
    rw [e, List.mem_map, N_edges false s hs E]
    simp [Spec.IsPerfectMatching]

/-- **C04** `spm(s)` for at least three distinct labels: each yield is a tuple of pairs (a single `i` written `(i, i)`), no pair
twice in a yield; as edge sets the yields are exactly the matchings with loops, each once; there are `T(n)` of them. -/
theorem spm_enumerates (s : List ℕ) (hs : s.Nodup) (h3 : 3 ≤ s.length) :
    ∃ L : List (List (List ℕ)), spm s = .ok L ∧
      (∀ l ∈ L, (∀ t ∈ l, ∃ i j, t = [i, j]) ∧ (l.map Spec.tupleEdge).Nodup) ∧
      (L.map Spec.tupleEdges).Nodup ∧
      (∀ E, E ∈ L.map Spec.tupleEdges ↔ Spec.IsLoopMatching s.toFinset E) ∧
      L.length = Reference.T s.length := by
  have e : ((N true true s).map fun l => l.map cloneIfSingle).map Spec.tupleEdges = (N true true s).map edgeSet := by
    rw [List.map_map]
    apply List.map_congr_left
    intro l hl
    unfold Spec.tupleEdges edgeSet
    simp only [Function.comp]
    rw [tupleEdges_clone hl]
  refine ⟨_, spm_eq s h3, ?_, ?_, ?_, ?_⟩
  · intro l hl
    obtain ⟨m, hm, rfl⟩ := List.mem_map.mp hl
    exact ⟨clone_pair hm, by rw [tupleEdges_clone hm]; exact N_edges_nodup _ _ s hs m hm⟩
  · rw [e]; exact N_nodup _ _ s hs
  · intro E
    rw [e, List.mem_map, N_edges true s hs E]
    simp
  · rw [List.length_map, N_length_both]

/-- **C04** `T(n)` is the number of involutions of `n` elements. -/
theorem telephone_involutions (n : ℕ) :
    Reference.T n = Fintype.card {σ : Equiv.Perm (Fin n) // ∀ i, σ (σ i) = i} := by
  have h := N_sum (K := ℚ) true true (fun _ => 1) (fun _ _ => 1) (List.range n)
  have h1 : ((N true true (List.range n)).map fun l => (l.map (cellWt (fun _ => (1 : ℚ)) fun _ _ => 1)).prod)
      = List.replicate (N true true (List.range n)).length 1 := by
    rw [List.eq_replicate_iff]
    refine ⟨by simp, ?_⟩
    intro q hq
    obtain ⟨l, hl, rfl⟩ := List.mem_map.mp hq
    apply List.prod_eq_one
    intro x hx
    obtain ⟨t, ht, rfl⟩ := List.mem_map.mp hx
    rcases N_cells _ _ _ l hl t ht with ⟨_, x, rfl⟩ | ⟨_, x, y, rfl⟩ <;> rfl
  rw [h1, List.sum_replicate, N_length_both, List.length_range] at h
  simp only [if_true, nsmul_eq_mul, mul_one] at h
  have h2 := lh_range (K := ℚ) (n := n) (Matrix.of fun _ _ => 1) (fun _ _ => 1)
  have h3 : (ofMatrix (Matrix.of fun _ _ => 1 : Matrix (Fin n) (Fin n) ℚ) fun _ _ => 1) = fun _ _ => 1 := by
    funext i j; simp [ofMatrix]
  rw [h3] at h2
  rw [h2] at h
  have h4 : Spec.lhaf (Matrix.of fun _ _ => 1 : Matrix (Fin n) (Fin n) ℚ)
      = Fintype.card {σ : Equiv.Perm (Fin n) // ∀ i, σ (σ i) = i} := by
    unfold Spec.lhaf
    simp [Fintype.card_subtype]
  rw [h4] at h
  exact_mod_cast h

/-- `spm` on a tuple of one or two labels raises `TypeError` (below the documented minimum of three labels). -/
theorem spm_short_raises (s : List ℕ) (h : s.length = 1 ∨ s.length = 2) : spm s = .error .typeError := by
  rcases s with _ | ⟨x, _ | ⟨y, _ | ⟨z, s⟩⟩⟩
  · simp at h
  · unfold spm; rw [partitions]; rfl
  · unfold spm; rw [partitions]; rfl
  · simp at h

example : ([4, 2, 9, 7] : List ℕ).Nodup ∧ 3 ≤ ([4, 2, 9, 7] : List ℕ).length := by decide

/-! ### C42: memoisation -/

section memo
variable {α β γ : Type} [DecidableEq α]

/-- Specification: the same history against the function without memoisation. -/
def runPlain (f : α → Obj γ) : List (Obj γ) → List (MemoOp α) → List (MemoOut γ)
  | _, [] => []
  | hs, .call a :: ops => seen (f a) :: runPlain f (hs ++ [f a]) ops
  | hs, .next i :: ops => (advance hs i).2 :: runPlain f (advance hs i).1 ops

/-- every cached object is what the function returns -/
private def Good (f : α → Obj γ) (c : LimitedDict (Option α) (Obj γ)) : Prop :=
  (∀ a o, (some a, o) ∈ c.entries → o = f a) ∧ c.sizeLimit ≠ some 0

private theorem get?_mem {c : LimitedDict (Option α) β} {k : Option α} {o : β} (h : c.get? k = some o) :
    (k, o) ∈ c.entries := by
  unfold LimitedDict.get? at h
  rw [Option.map_eq_some_iff] at h
  obtain ⟨p, hp, rfl⟩ := h
  have h1 := List.find?_some hp
  have h2 := List.mem_of_find?_eq_some hp
  simp only [decide_eq_true_eq] at h1
  rw [← h1]; exact h2

private theorem set_good {f : α → Obj γ} {c : LimitedDict (Option α) (Obj γ)} (h : Good f c) (a : α) :
    Good f (c.set (some a) (f a)) := by
  have hmem : ∀ (d : LimitedDict (Option α) (Obj γ)) p, p ∈ d.check.entries → p ∈ d.entries := by
    intro d p hp
    unfold LimitedDict.check at hp
    split at hp
    · exact hp
    · exact List.mem_of_mem_drop hp
  have hlim : ∀ d : LimitedDict (Option α) (Obj γ), d.check.sizeLimit = d.sizeLimit := by
    intro d; unfold LimitedDict.check; split <;> simp_all
  refine ⟨?_, ?_⟩
  · intro b o hb
    have hb := hmem _ _ hb
    split at hb
    · simp only [List.mem_map] at hb
      obtain ⟨p, hp, hpe⟩ := hb
      split at hpe
      · simp only [Prod.mk.injEq, Option.some.injEq] at hpe
        rw [← hpe.1, ← hpe.2]
      · rw [hpe] at hp; exact h.1 b o hp
    · simp only [List.mem_append, List.mem_singleton, Prod.mk.injEq, Option.some.injEq] at hb
      rcases hb with hb | ⟨rfl, rfl⟩
      · exact h.1 b o hb
      · rfl
  · unfold LimitedDict.set
    rw [hlim]
    split <;> exact h.2

private theorem get?_set {c : LimitedDict (Option α) (Obj γ)} {a : α} {v : Obj γ} (hl : c.sizeLimit ≠ some 0)
    (hn : c.get? (some a) = none) : (c.set (some a) v).get? (some a) = some v := by
  have hno : ∀ p ∈ c.entries, p.1 ≠ some a := by
    intro p hp he
    unfold LimitedDict.get? at hn
    rw [Option.map_eq_none_iff, List.find?_eq_none] at hn
    exact hn p hp (by simp [he])
  have hany : c.entries.any (fun p : Option α × Obj γ => decide (p.1 = some a)) = false := by
    rw [List.any_eq_false]; intro p hp; simpa using hno p hp
  have key : ∀ k, (List.drop k c.entries ++ [(some a, v)]).find? (fun p : Option α × Obj γ => decide (p.1 = some a))
      = some (some a, v) := by
    intro k
    rw [List.find?_append, List.find?_eq_none.mpr]
    · simp
    · intro p hp; simpa using hno p (List.mem_of_mem_drop hp)
  unfold LimitedDict.set
  rw [hany]
  simp only [Bool.false_eq_true, if_false]
  unfold LimitedDict.get? LimitedDict.check
  cases hL : c.sizeLimit with
  | none =>
    have := key 0
    simp only [List.drop_zero] at this
    simp [this]
  | some n =>
    have hn0 : n ≠ 0 := by rintro rfl; exact hl hL
    simp only
    rw [List.drop_append_of_le_length (by simp; omega), key]
    rfl

private theorem memoCall_good {f : α → Obj γ} {c : LimitedDict (Option α) (Obj γ)} (h : Good f c) (a : α) :
    ∃ c', memoCall f c a = .ok (c', f a) ∧ Good f c' := by
  unfold memoCall
  have main : ∀ d : LimitedDict (Option α) (Obj γ), Good f d → d.get? (some a) = some (f a) →
      ∃ c', (match d.get? (some a) with
        | none => .error .keyError
        | some (.iter items pos) => .ok (d.set (some a) (.iter items pos), .iter items pos)
        | some (.value v) => .ok (d, .value v) : Except PyErr _) = .ok (c', f a) ∧ Good f c' := by
    intro d hd hg
    rw [hg]
    have := set_good hd a
    cases hfa : f a with
    | value v => exact ⟨d, rfl, hd⟩
    | iter items pos => rw [hfa] at this; exact ⟨_, rfl, this⟩
  cases hg : c.get? (some a) with
  | none =>
    simp only [Option.isNone_none, if_true]
    exact main _ (set_good h a) (get?_set h.2 hg)
  | some o =>
    simp only [Option.isNone_some, Bool.false_eq_true, if_false]
    have : o = f a := h.1 a o (get?_mem hg)
    exact main c h (by rw [hg, this])

/-- **C42** (transparency) For every history of calls and of advances of the returned iterators, in any interleaving, the
outputs of the memoised function are those of the plain function and nothing raises.  This holds for the cache made by `memoized`
and for any cache with a size limit of at least one, whatever has been evicted. -/
theorem memo_transparent (f : α → Obj γ) (maxsize : ℕ) (marker : Obj γ) (limit : Option ℕ) (hlim : limit ≠ some 0)
    (c : LimitedDict (Option α) (Obj γ))
    (hc : c = memoCacheInit maxsize marker ∨ c = { entries := [], sizeLimit := limit })
    (ops : List (MemoOp α)) : ∃ c', runMemo f c [] ops = .ok (c', runPlain f [] ops) := by
  have hg : Good f c := by
    rcases hc with rfl | rfl
    · exact ⟨by simp [memoCacheInit], by simp [memoCacheInit]⟩
    · exact ⟨by simp, hlim⟩
  clear hc
  generalize ([] : List (Obj γ)) = hs
  induction ops generalizing c hs with
  | nil => exact ⟨c, rfl⟩
  | cons op ops ih =>
    cases op with
    | call a =>
      obtain ⟨c', h1, h2⟩ := memoCall_good hg a
      obtain ⟨c'', h3⟩ := ih c' h2 (hs ++ [f a])
      refine ⟨c'', ?_⟩
      simp only [runMemo, runPlain, h1, bind, Except.bind, h3, pure, Except.pure]
    | next i =>
      obtain ⟨c'', h3⟩ := ih c hg (advance hs i).1
      refine ⟨c'', ?_⟩
      simp only [runMemo, runPlain, bind, Except.bind, h3, pure, Except.pure]

/-- a history in which two clients interleave over the same cached generator -/
example : runPlain (fun n : ℕ => Obj.iter (List.range n) 0) [] [.call 2, .next 0, .call 2, .next 1, .next 0, .next 0]
    = [.gotIter, .item 0, .gotIter, .item 0, .item 1, .stop] := by decide

/-- **C42** (bound) A `LimitedSizeDict` built with `size_limit=n` never has more than `n` entries, whatever is inserted. -/
theorem limitedDict_bounded_partial (n : ℕ) (kvs : List (α × β)) :
    (kvs.foldl (fun d p => d.set p.1 p.2) ({ entries := [], sizeLimit := some n } : LimitedDict α β)).entries.length ≤ n := by
  have key : ∀ d : LimitedDict α β, d.sizeLimit = some n → d.check.sizeLimit = some n ∧ d.check.entries.length ≤ n := by
    intro d hd
    unfold LimitedDict.check
    rw [hd]
    refine ⟨rfl, ?_⟩
    simp; omega
  have : ∀ (kvs : List (α × β)) (d : LimitedDict α β), d.sizeLimit = some n → d.entries.length ≤ n →
      (kvs.foldl (fun d p => d.set p.1 p.2) d).entries.length ≤ n := by
    intro kvs
    induction kvs with
    | nil => intro d _ h; exact h
    | cons p ps ih =>
      intro d hd _
      have : (d.set p.1 p.2).sizeLimit = some n ∧ (d.set p.1 p.2).entries.length ≤ n := by
        unfold LimitedDict.set
        apply key
        split <;> exact hd
      exact ih _ this.1 this.2
  exact this kvs _ rfl (by simp)

/-- **C42** (the bound fails in the code) `memoized` passes its limit under the wrong keyword, so the cache of a memoised function
grows without bound: for every `maxsize` and every `N` there is a history after which it holds more than `N` entries. -/
theorem memo_limit_not_enforced (maxsize N : ℕ) (marker : Obj γ) (f : ℕ → Obj γ) :
    ∃ ops c outs, runMemo f (memoCacheInit maxsize marker) [] ops = .ok (c, outs) ∧ N < c.entries.length := by
  have step : ∀ (c : LimitedDict (Option ℕ) (Obj γ)) (k : ℕ), c.sizeLimit = none → c.entries.length = k + 1 →
      (∀ a o, (some a, o) ∈ c.entries → a < k) →
      ∃ c' o, memoCall f c k = .ok (c', o) ∧ c'.sizeLimit = none ∧ c'.entries.length = k + 2 ∧
        (∀ a o, (some a, o) ∈ c'.entries → a < k + 1) := by
    intro c k h1 h2 h3
    have hno : ∀ p ∈ c.entries, p.1 ≠ some k := by
      intro p hp he
      have := h3 k p.2 (by rw [← he]; exact hp)
      omega
    have hget : c.get? (some k) = none := by
      unfold LimitedDict.get?
      rw [Option.map_eq_none_iff, List.find?_eq_none]
      intro p hp; simpa using hno p hp
    have hany : c.entries.any (fun p : Option ℕ × Obj γ => decide (p.1 = some k)) = false := by
      rw [List.any_eq_false]; intro p hp; simpa using hno p hp
    have hset : c.set (some k) (f k) = { entries := c.entries ++ [(some k, f k)], sizeLimit := none } := by
      unfold LimitedDict.set
      rw [hany]
      simp only [Bool.false_eq_true, if_false, LimitedDict.check, h1]
    have hgs := get?_set (v := f k) (by rw [h1]; simp) hget
    have hmem : ∀ a o, (some a, o) ∈ c.entries ++ [(some k, f k)] → a < k + 1 := by
      intro a o h
      simp only [List.mem_append, List.mem_singleton, Prod.mk.injEq, Option.some.injEq] at h
      rcases h with h | ⟨rfl, -⟩
      · have := h3 a o h; omega
      · omega
    unfold memoCall
    simp only [hget, Option.isNone_none, if_true]
    rw [hgs]
    cases hf : f k with
    | value v =>
      refine ⟨_, _, rfl, ?_⟩
      rw [← hf, hset]
      exact ⟨rfl, by simp [h2], hmem⟩
    | iter items pos =>
      refine ⟨_, _, rfl, ?_⟩
      rw [← hf, hset]
      unfold LimitedDict.set
      have : (c.entries ++ [(some k, f k)]).any (fun p : Option ℕ × Obj γ => decide (p.1 = some k)) = true := by simp
      simp only [this, if_true, LimitedDict.check]
      refine ⟨trivial, by simp [h2], ?_⟩
      intro a o h
      simp only [List.mem_map] at h
      obtain ⟨p, hp, hpe⟩ := h
      split at hpe
      · simp only [Prod.mk.injEq, Option.some.injEq] at hpe; omega
      · rw [hpe] at hp; exact hmem a o hp
  have run : ∀ (m k : ℕ) (c : LimitedDict (Option ℕ) (Obj γ)) (hs : List (Obj γ)), c.sizeLimit = none →
      c.entries.length = k + 1 → (∀ a o, (some a, o) ∈ c.entries → a < k) →
      ∃ c' outs, runMemo f c hs ((List.range' k m).map .call) = .ok (c', outs) ∧ c'.entries.length = k + m + 1 := by
    intro m
    induction m with
    | zero => intro k c hs _ h2 _; exact ⟨c, [], rfl, h2⟩
    | succ m ih =>
      intro k c hs h1 h2 h3
      obtain ⟨c', o, h4, h5, h6, h7⟩ := step c k h1 h2 h3
      obtain ⟨c'', outs, h8, h9⟩ := ih (k + 1) c' (hs ++ [o]) h5 h6 h7
      refine ⟨c'', seen o :: outs, ?_, by omega⟩
      rw [List.range'_succ, List.map_cons]
      simp only [runMemo, h4, bind, Except.bind, h8, pure, Except.pure]
  obtain ⟨c', outs, h1, h2⟩ := run N 0 (memoCacheInit maxsize marker) [] rfl rfl (by simp [memoCacheInit])
  exact ⟨_, c', outs, h1, by omega⟩

end memo

end Verif.Props
