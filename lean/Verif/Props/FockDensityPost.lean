/-
C70: `density_matrix` with post-selection.
-/
import Verif.Props.FockDensity

set_option linter.unusedSectionVars false
set_option linter.unusedSimpArgs false

namespace Verif.Props
open Verif.Model Verif.Model.Symp Verif.Model.Conv Verif.Model.Fock Verif.Spec Verif.Lemmas Verif.Lemmas.Symp Verif.Lemmas.FockS Verif.Lemmas.Chol Matrix

variable {N : ℕ} {cov : ℕ → ℕ → ℝ} {hbar : ℝ}

/-- the elements without the prefactor -/
theorem dme_raw (hN : N ≠ 0) (mu : ℕ → ℝ) (cov : ℕ → ℕ → ℝ) (hbar tol : ℝ) (hh : 0 < hbar) (hph : Physical (phase N N cov) hbar)
    (htol : (∀ i < 2 * N, mu i = 0) ∨ tol ≤ Real.sqrt ((∑ i ∈ Finset.range (2 * N), mu i ^ 2) / hbar)) :
    ∃ (ρ raw : (Fin N → ℕ) → (Fin N → ℕ) → ℂ) (pref : ℝ), IsFockMatrix N mu cov hbar ρ ∧ prefactor N mu cov hbar = .ok (pref : ℂ) ∧
      ∀ i j : Fin N → ℕ, densityMatrixElement (isClose 0 0) N mu cov (List.ofFn i) (List.ofFn j) false tol hbar = .ok (raw i j) ∧
        densityMatrixElement (isClose 0 0) N mu cov (List.ofFn i) (List.ofFn j) true tol hbar = .ok (raw i j * pref) ∧ raw i j * pref = ρ j i := by
  obtain ⟨A, γ, pref, hA, hAt, -, hγ, hγ0, hp, hpref, hF, hρ⟩ := fock_setup mu hh hph
  have hAs : ∀ a < 2 * N, ∀ b < 2 * N, A a b = A b a := by
    intro a ha b hb
    obtain ⟨p, rfl⟩ := exists_quad N a ha
    obtain ⟨q, rfl⟩ := exists_quad N b hb
    exact congrFun (congrFun hAt q) p
  have key : ∀ (b : Bool) (i j : Fin N → ℕ), densityMatrixElement (isClose 0 0) N mu cov (List.ofFn i) (List.ofFn j) b tol hbar =
      .ok (lh γ A (repeatedIndices (List.ofFn i ++ List.ofFn j)) * (if b then (pref : ℂ) else 1) / (sqrtFacs (List.ofFn i ++ List.ofFn j) : ℝ)) := by
    intro b i j
    have hlen : (List.ofFn i ++ List.ofFn j).length = 2 * N := by simp; omega
    unfold densityMatrixElement
    simp only [bind, Except.bind, pure, Except.pure]
    rw [hA]
    simp only
    rw [hafTerm_correct (2 * N) A hAs _ _ hlen (by omega)]
    simp only
    rw [hpref, ← hγ, lh_zero_gamma tol mu A hh htol _ (fun x hx => by have := repeatedIndices_lt hx; omega) γ hγ0]
    rcases b with _ | _ <;> rfl
  refine ⟨_, fun i j => lh γ A (repeatedIndices (List.ofFn i ++ List.ofFn j)) / (sqrtFacs (List.ofFn i ++ List.ofFn j) : ℝ), pref, hF, hpref, fun i j => ⟨?_, ?_, ?_⟩⟩
  · rw [key]; simp
  · rw [key]; simp only [if_true]; congr 1; ring
  · rw [hρ]
    have : sqrtFacs (List.ofFn i ++ List.ofFn j) = Real.sqrt (((∏ k, ((i k).factorial : ℝ)) * ∏ k, ((j k).factorial : ℝ))) := by
      unfold sqrtFacs
      rw [List.map_append, List.prod_append, List.map_ofFn, List.map_ofFn, List.prod_ofFn, List.prod_ofFn]
      rfl
    simp only [this]
    ring

/-- a loop that stores one value per index -/
theorem foldlM_update {K : Type} (L : List (List ℕ)) (key : List ℕ → List ℕ) (w : List ℕ → Except PyErr K) (v : List ℕ → K) (h : ∀ idx ∈ L, w idx = .ok (v idx))
    (hk : ∀ a ∈ L, ∀ b ∈ L, key a = key b → v a = v b) (T0 : MArr K) :
    ∃ T : MArr K, L.foldlM (m := Except PyErr) (fun (T : MArr K) idx => (w idx).bind fun a => Except.ok (Function.update T (key idx) a)) T0 = .ok T ∧
      (∀ idx ∈ L, T (key idx) = v idx) ∧ ∀ x, (∀ a ∈ L, key a ≠ x) → T x = T0 x := by
  induction L generalizing T0 with
  | nil => exact ⟨T0, rfl, by simp, fun _ _ => rfl⟩
  | cons a L ih =>
    obtain ⟨T, hT, hv, hx⟩ := ih (fun i hi => h i (List.mem_cons_of_mem _ hi)) (fun b hb c hc => hk b (List.mem_cons_of_mem _ hb) c (List.mem_cons_of_mem _ hc))
      (Function.update T0 (key a) (v a))
    refine ⟨T, ?_, ?_, ?_⟩
    · rw [List.foldlM_cons, h a List.mem_cons_self]
      exact hT
    · intro b hb
      rcases List.mem_cons.mp hb with rfl | hb
      · by_cases hc : ∃ c ∈ L, key c = key b
        · obtain ⟨c, hc, e⟩ := hc
          rw [← e, hv c hc]
          exact hk c (List.mem_cons_of_mem _ hc) b List.mem_cons_self e
        · push Not at hc
          rw [hx _ hc, Function.update_self]
      · exact hv b hb
    · intro x hx'
      rw [hx x fun b hb => hx' b (List.mem_cons_of_mem _ hb), Function.update_of_ne (hx' a List.mem_cons_self).symm]

/-- the modes that are not post-selected, in ascending order -/
def freeModes (N : ℕ) (post : List (ℕ × ℕ)) : List (Fin N) := (List.finRange N).filter fun m => decide ((m : ℕ) ∉ post.map Prod.fst)

theorem lookup_none_iff (post : List (ℕ × ℕ)) (m : ℕ) : post.lookup m = none ↔ m ∉ post.map Prod.fst := by
  rw [List.lookup_eq_none_iff]
  simp only [List.mem_map, Prod.exists, exists_and_right, exists_eq_right, not_exists, Prod.forall, bne_iff_ne]
  simp only [beq_eq_false_iff_ne, ne_eq, bne_iff_ne]
  constructor
  · intro h x hx; exact (h _ _ hx) rfl
  · rintro h a b hab rfl; exact h _ hab

theorem lookup_of_mem (post : List (ℕ × ℕ)) (hnd : (post.map Prod.fst).Nodup) (p : ℕ × ℕ) (hp : p ∈ post) : post.lookup p.1 = some p.2 := by
  induction post with
  | nil => simp at hp
  | cons q post ih =>
    rw [List.map_cons, List.nodup_cons] at hnd
    rcases List.mem_cons.mp hp with rfl | hp'
    · simp [List.lookup]
    · have hne : p.1 ≠ q.1 := by
        rintro e
        exact hnd.1 (e ▸ List.mem_map_of_mem hp')
      obtain ⟨a, b⟩ := q
      rw [List.lookup_cons, beq_false_of_ne hne]
      exact ih hnd.2 hp'

theorem mem_of_lookup (post : List (ℕ × ℕ)) (m v : ℕ) (h : post.lookup m = some v) : (m, v) ∈ post := by
  rw [List.lookup_eq_some_iff] at h
  obtain ⟨l1, l2, rfl, -⟩ := h
  simp

theorem freeModes_length (post : List (ℕ × ℕ)) (hnd : (post.map Prod.fst).Nodup) (hlt : ∀ p ∈ post, p.1 < N) : (freeModes N post).length + post.length = N := by
  have h1 : ((List.finRange N).filter fun m : Fin N => decide ((m : ℕ) ∈ post.map Prod.fst)).length = post.length := by
    have hp : (((List.finRange N).filter fun m : Fin N => decide ((m : ℕ) ∈ post.map Prod.fst)).map fun m : Fin N => (m : ℕ)).Perm (post.map Prod.fst) := by
      rw [List.perm_ext_iff_of_nodup (((List.nodup_finRange N).filter _).map Fin.val_injective) hnd]
      intro a
      simp only [List.mem_map, List.mem_filter, List.mem_finRange, true_and, decide_eq_true_eq]
      constructor
      · rintro ⟨m, hm, rfl⟩; exact hm
      · rintro ⟨p, hp, rfl⟩; exact ⟨⟨p.1, hlt p hp⟩, ⟨p, hp, rfl⟩, rfl⟩
    have := hp.length_eq
    simpa using this
  have h2 := List.length_eq_length_filter_add (l := List.finRange N) fun m : Fin N => decide ((m : ℕ) ∈ post.map Prod.fst)
  rw [List.length_finRange, h1] at h2
  unfold freeModes
  have e : (fun m : Fin N => decide ((m : ℕ) ∉ post.map Prod.fst)) = fun m : Fin N => !decide ((m : ℕ) ∈ post.map Prod.fst) := by
    funext m; rw [decide_not]
  rw [e]
  omega

/-- the list of occupation numbers assembled from the free indices -/
theorem fillEl_correct (post : List (ℕ × ℕ)) (idx : List ℕ) (L : List (ℕ × ℕ)) (c : ℕ) (h1 : ∀ p ∈ L, ∀ v, post.lookup p.1 = some v → p.2 = v)
    (h2 : idx.drop c = (L.filter fun p => decide (p.1 ∉ post.map Prod.fst)).map Prod.snd) : fillEl post idx (L.map Prod.fst) c = .ok (L.map Prod.snd) := by
  induction L generalizing c with
  | nil => rfl
  | cons p L ih =>
    rw [List.map_cons, List.map_cons, fillEl]
    rcases hl : post.lookup p.1 with _ | v
    · simp only
      have hm := (lookup_none_iff post p.1).mp hl
      rw [List.filter_cons_of_pos (by simpa using hm), List.map_cons] at h2
      have hc : c < idx.length := by
        by_contra hc
        rw [List.drop_eq_nil_of_le (by omega)] at h2
        simp at h2
      rw [List.drop_eq_getElem_cons hc] at h2
      injection h2 with h3 h4
      rw [if_pos hc, ih (c + 1) (fun q hq => h1 q (List.mem_cons_of_mem _ hq)) h4, List.getD_eq_getElem _ _ hc, h3]
      rfl
    · simp only
      have hm : ¬ p.1 ∉ post.map Prod.fst := by rw [← lookup_none_iff, hl]; simp
      rw [List.filter_cons_of_neg (by simpa using hm)] at h2
      rw [ih c (fun q hq => h1 q (List.mem_cons_of_mem _ hq)) h2, h1 p List.mem_cons_self v hl]
      rfl

/-- the occupation numbers `i` agree with the post-selected ones -/
def Selects (post : List (ℕ × ℕ)) (i : Fin N → ℕ) : Prop := ∀ p ∈ post, ∀ h : p.1 < N, i ⟨p.1, h⟩ = p.2

theorem filter_pairs (post : List (ℕ × ℕ)) (i : Fin N → ℕ) :
    (((List.finRange N).map fun m : Fin N => ((m : ℕ), i m)).filter fun p => decide (p.1 ∉ post.map Prod.fst)).map Prod.snd = (freeModes N post).map i := by
  unfold freeModes
  rw [List.filter_map, List.map_map]
  rfl

theorem fillEl_pair (post : List (ℕ × ℕ)) (i j : Fin N → ℕ) (hi : Selects post i) (hj : Selects post j) :
    fillEl post ((freeModes N post).map i ++ (freeModes N post).map j) ((List.range (2 * N)).map (· % N)) 0 = .ok (List.ofFn i ++ List.ofFn j) := by
  have e : (List.range (2 * N)).map (· % N) =
      (((List.finRange N).map fun m : Fin N => ((m : ℕ), i m)) ++ (List.finRange N).map fun m : Fin N => ((m : ℕ), j m)).map Prod.fst := by
    rw [two_mul, List.range_add, List.map_append, List.map_append, List.map_map, List.map_map, List.map_map]
    congr 1
    · apply List.ext_getElem
      · simp
      · intro n h1 h2
        have hn : n < N := by simpa using h1
        simp [Nat.mod_eq_of_lt hn]
    · apply List.ext_getElem
      · simp
      · intro n h1 h2
        have hn : n < N := by simpa using h1
        simp [Nat.mod_eq_of_lt hn]
  have es : ∀ k : Fin N → ℕ, (((List.finRange N).map fun m : Fin N => ((m : ℕ), k m))).map Prod.snd = List.ofFn k := by
    intro k
    rw [List.map_map, List.ofFn_eq_map]
    rfl
  rw [e, fillEl_correct, List.map_append, es, es]
  · intro p hp v hv
    have hmem := mem_of_lookup _ _ _ hv
    rcases List.mem_append.mp hp with hp | hp <;> obtain ⟨m, -, rfl⟩ := List.mem_map.mp hp
    · exact hi _ hmem m.2
    · exact hj _ hmem m.2
  · rw [List.filter_append, List.map_append, filter_pairs, filter_pairs]
    rfl

theorem fillEl_single (post : List (ℕ × ℕ)) (i : Fin N → ℕ) (hi : Selects post i) :
    fillEl post ((freeModes N post).map i) (List.range N) 0 = .ok (List.ofFn i) := by
  have e : List.range N = ((List.finRange N).map fun m : Fin N => ((m : ℕ), i m)).map Prod.fst := by
    rw [List.map_map]
    apply List.ext_getElem
    · simp
    · intro n h1 h2
      simp
  have es : ∀ k : Fin N → ℕ, (((List.finRange N).map fun m : Fin N => ((m : ℕ), k m))).map Prod.snd = List.ofFn k := by
    intro k
    rw [List.map_map, List.ofFn_eq_map]
    rfl
  rw [e, fillEl_correct, es]
  · intro p hp v hv
    have hmem := mem_of_lookup _ _ _ hv
    obtain ⟨m, -, rfl⟩ := List.mem_map.mp hp
    exact hi _ hmem m.2
  · rw [filter_pairs]
    rfl

/-- the occupation numbers given by a list of indices of the free modes -/
def fillFn (N : ℕ) (post : List (ℕ × ℕ)) (idx : List ℕ) (m : Fin N) : ℕ := (post.lookup (m : ℕ)).getD (idx.getD ((freeModes N post).idxOf m) 0)

theorem fillFn_selects (post : List (ℕ × ℕ)) (hnd : (post.map Prod.fst).Nodup) (idx : List ℕ) : Selects post (fillFn N post idx) := by
  intro p hp h
  unfold fillFn
  simp only
  rw [lookup_of_mem post hnd p hp]
  rfl

theorem freeModes_nodup (post : List (ℕ × ℕ)) : (freeModes N post).Nodup := (List.nodup_finRange N).filter _

theorem fillFn_free (post : List (ℕ × ℕ)) (idx : List ℕ) (hl : idx.length = (freeModes N post).length) : (freeModes N post).map (fillFn N post idx) = idx := by
  apply List.ext_getElem
  · simp [hl]
  · intro n h1 h2
    rw [List.getElem_map]
    have hn : n < (freeModes N post).length := by simpa using h1
    have hmem : (freeModes N post)[n] ∈ freeModes N post := List.getElem_mem hn
    have hm : (((freeModes N post)[n] : Fin N) : ℕ) ∉ post.map Prod.fst := by
      have := (List.mem_filter.mp hmem).2
      simpa using this
    unfold fillFn
    rw [(lookup_none_iff post _).mpr hm, Option.getD_none, (freeModes_nodup post).idxOf_getElem n hn, List.getD_eq_getElem _ _ h2]

theorem fillFn_map (post : List (ℕ × ℕ)) (i : Fin N → ℕ) (hi : Selects post i) : fillFn N post ((freeModes N post).map i) = i := by
  funext m
  unfold fillFn
  rcases hl : post.lookup (m : ℕ) with _ | v
  · have hm : m ∈ freeModes N post := by
      unfold freeModes
      rw [List.mem_filter]
      refine ⟨List.mem_finRange m, ?_⟩
      simpa using (lookup_none_iff post m).mp hl
    have hlt := List.idxOf_lt_length_iff.mpr hm
    rw [Option.getD_none, List.getD_eq_getElem _ _ (by simpa using hlt), List.getElem_map, List.getElem_idxOf]
  · exact (hi _ (mem_of_lookup _ _ _ hl) m.2).symm

theorem selects_ext (post : List (ℕ × ℕ)) {i i' : Fin N → ℕ} (hi : Selects post i) (hi' : Selects post i') (h : (freeModes N post).map i = (freeModes N post).map i') :
    i = i' := by rw [← fillFn_map post i hi, h, fillFn_map post i' hi']

theorem mem_ndindex_replicate (n c : ℕ) (idx : List ℕ) : idx ∈ ndindex (List.replicate n c) ↔ idx.length = n ∧ ∀ x ∈ idx, x < c := by
  rw [mem_ndindex]
  induction n generalizing idx with
  | zero => cases idx <;> simp
  | succ n ih =>
    rw [List.replicate_succ]
    cases idx with
    | nil => simp
    | cons a idx =>
      rw [List.forall₂_cons, ih]
      simp
      tauto

theorem ndindex_nodup (shape : List ℕ) : (ndindex shape).Nodup := by
  induction shape with
  | nil => simp [ndindex]
  | cons c cs ih =>
    rw [ndindex, List.nodup_flatMap]
    constructor
    · intro x _
      exact ih.map (List.cons_injective)
    · have h := List.nodup_range (n := c)
      rw [List.Nodup] at h
      refine h.imp ?_
      intro a b hab
      simp only [Function.onFun]
      intro x hx hy
      obtain ⟨y, -, rfl⟩ := List.mem_map.mp hx
      obtain ⟨z, -, h⟩ := List.mem_map.mp hy
      injection h with h1 h2
      exact hab h1.symm

theorem flat2_inj {α : Type*} (L : List α) (f g f' g' : α → ℕ) (h : (L.flatMap fun k => [f k, g k]) = L.flatMap fun k => [f' k, g' k]) :
    L.map f = L.map f' ∧ L.map g = L.map g' := by
  induction L with
  | nil => exact ⟨rfl, rfl⟩
  | cons a L ih =>
    rw [List.flatMap_cons, List.flatMap_cons] at h
    simp only [List.cons_append, List.nil_append, List.cons.injEq] at h
    obtain ⟨h1, h2, h3⟩ := h
    obtain ⟨h4, h5⟩ := ih h3
    rw [List.map_cons, List.map_cons, List.map_cons, List.map_cons, h1, h2, h4, h5]
    exact ⟨rfl, rfl⟩

/-- index list of an entry of the post-selected tensor -/
theorem sfEl_eq (L : List (Fin N)) (i j : Fin N → ℕ) : sfEl L.length (L.map i ++ L.map j) = L.flatMap fun m => [j m, i m] := by
  unfold sfEl
  have e : L = (List.range L.length).pmap (fun n h => L[n]'h) (fun n hn => List.mem_range.mp hn) := by
    apply List.ext_getElem
    · simp
    · intro n h1 h2; simp
  conv_rhs => rw [e]
  rw [List.flatMap_def, List.flatMap_def, List.map_pmap]
  congr 1
  rw [← List.pmap_eq_map (p := fun n => n < L.length) (H := fun n hn => List.mem_range.mp hn)]
  apply List.pmap_congr_left
  intro n hn h1 h2
  have e1 : (L.map i ++ L.map j).getD (L.length + n) 0 = j L[n] := by
    rw [List.getD_eq_getElem _ _ (by simp; omega), List.getElem_append_right (by simp)]
    simp
  have e2 : (L.map i ++ L.map j).getD n 0 = i L[n] := by
    rw [List.getD_eq_getElem _ _ (by simp; omega), List.getElem_append_left (by simpa using h1)]
    simp
  rw [e1, e2]

/-- the occupation numbers below the cutoff that agree with the post-selected ones -/
def selected (N : ℕ) (post : List (ℕ × ℕ)) (cutoff : ℕ) : Finset (Fin N → ℕ) :=
  Fintype.piFinset fun m : Fin N => ((post.lookup (m : ℕ)).map fun v => ({v} : Finset ℕ)).getD (Finset.range cutoff)

theorem mem_selected (post : List (ℕ × ℕ)) (hnd : (post.map Prod.fst).Nodup) (cutoff : ℕ) (i : Fin N → ℕ) :
    i ∈ selected N post cutoff ↔ Selects post i ∧ ∀ m ∈ freeModes N post, i m < cutoff := by
  unfold selected
  rw [Fintype.mem_piFinset]
  constructor
  · intro h
    constructor
    · intro p hp hlt
      have := h ⟨p.1, hlt⟩
      simp only [lookup_of_mem post hnd p hp] at this
      simpa using this
    · intro m hm
      have hm' : (m : ℕ) ∉ post.map Prod.fst := by simpa using (List.mem_filter.mp hm).2
      have := h m
      rw [(lookup_none_iff post m).mpr hm'] at this
      simpa using this
  · rintro ⟨h1, h2⟩ m
    rcases hl : post.lookup (m : ℕ) with _ | v
    · have hm : m ∈ freeModes N post := by
        unfold freeModes
        rw [List.mem_filter]
        refine ⟨List.mem_finRange m, ?_⟩
        simpa using (lookup_none_iff post m).mp hl
      simpa using h2 m hm
    · have := h1 _ (mem_of_lookup _ _ _ hl) m.2
      simpa using this

/-- the trace of the transposed tensor -/
theorem trace_sum {R : Type*} [AddCommMonoid R] (post : List (ℕ × ℕ)) (hnd : (post.map Prod.fst).Nodup) (cutoff : ℕ) (f : List ℕ → R) :
    ((ndindex (List.replicate (freeModes N post).length cutoff)).map f).sum = ∑ i ∈ selected N post cutoff, f ((freeModes N post).map i) := by
  rw [← List.sum_toFinset _ (ndindex_nodup _)]
  symm
  refine Finset.sum_bij (fun i _ => (freeModes N post).map i) ?_ ?_ ?_ ?_
  · intro i hi
    rw [mem_selected post hnd] at hi
    rw [List.mem_toFinset, mem_ndindex_replicate]
    refine ⟨by simp, fun x hx => ?_⟩
    obtain ⟨m, hm, rfl⟩ := List.mem_map.mp hx
    exact hi.2 m hm
  · intro i hi i' hi' h
    rw [mem_selected post hnd] at hi hi'
    exact selects_ext post hi.1 hi'.1 h
  · intro idx hidx
    rw [List.mem_toFinset, mem_ndindex_replicate] at hidx
    refine ⟨fillFn N post idx, ?_, fillFn_free post idx hidx.1⟩
    rw [mem_selected post hnd]
    refine ⟨fillFn_selects post hnd idx, fun m hm => ?_⟩
    have := hidx.2 (fillFn N post idx m)
    apply this
    rw [← fillFn_free post idx hidx.1]
    have h2 := List.mem_map_of_mem (f := fillFn N post idx) hm
    rwa [fillFn_free post idx hidx.1] at h2 ⊢
  · intro i hi
    rfl

theorem newAx_idx (M k : ℕ) (hk : k < M) :
    ((List.range M).map (2 * ·) ++ (List.range M).map (2 * · + 1)).idxOf (2 * k) = k ∧
    ((List.range M).map (2 * ·) ++ (List.range M).map (2 * · + 1)).idxOf (2 * k + 1) = M + k := by
  have hnd : ((List.range M).map (2 * ·) ++ (List.range M).map (2 * · + 1)).Nodup := by
    rw [List.nodup_append]
    refine ⟨List.nodup_range.map (fun a b h => by simpa using h), List.nodup_range.map (fun a b h => by simpa using h), ?_⟩
    intro a ha b hb
    obtain ⟨x, -, rfl⟩ := List.mem_map.mp ha
    obtain ⟨y, -, rfl⟩ := List.mem_map.mp hb
    omega
  have key : ∀ (m v : ℕ), ((List.range M).map (2 * ·) ++ (List.range M).map (2 * · + 1))[m]? = some v →
      ((List.range M).map (2 * ·) ++ (List.range M).map (2 * · + 1)).idxOf v = m := by
    intro m v hm
    obtain ⟨hlt, e⟩ := List.getElem?_eq_some_iff.mp hm
    rw [← e]
    exact hnd.idxOf_getElem m hlt
  constructor
  · apply key
    rw [List.getElem?_append_left (by simpa using hk)]
    simp [hk]
  · apply key
    rw [List.getElem?_append_right (by simp)]
    simp [hk]

theorem range_two_mul_flatMap (M : ℕ) : List.range (2 * M) = (List.range M).flatMap fun k => [2 * k, 2 * k + 1] := by
  induction M with
  | zero => rfl
  | succ M ih => rw [show 2 * (M + 1) = 2 * M + 1 + 1 by ring, List.range_succ, List.range_succ, ih, List.range_succ, List.flatMap_append]; simp

theorem transpose_new {K : Type} (T : MArr K) (L : List (Fin N)) (i : Fin N → ℕ) :
    transposeT ((List.range L.length).map (2 * ·) ++ (List.range L.length).map (2 * · + 1)) T (L.map i ++ L.map i) = T (L.flatMap fun m => [i m, i m]) := by
  rw [← sfEl_eq L i i]
  unfold transposeT sfEl
  congr 1
  rw [List.length_append, List.length_map, List.length_map, List.length_range, ← two_mul, range_two_mul_flatMap, List.map_flatMap]
  rw [List.flatMap_def, List.flatMap_def]
  congr 1
  apply List.map_congr_left
  intro k hk
  have hk' := List.mem_range.mp hk
  have h := newAx_idx L.length k hk'
  simp only [List.map_cons, List.map_nil, h.1, h.2]
  have e : (L.map i ++ L.map i).getD (L.length + k) 0 = (L.map i ++ L.map i).getD k 0 := by
    rw [List.getD_eq_getElem _ _ (by simp; omega), List.getD_eq_getElem _ _ (by simp; omega), List.getElem_append_right (by simp),
      List.getElem_append_left (by simpa using hk')]
    simp
  rw [e]

/-- **C70** With post-selection, `density_matrix(mu, cov, post_select, normalize, cutoff)` has at the indices `i_m, j_m` of the remaining modes `m`, in
ascending order, the matrix element `⟨i|ρ|j⟩` of the Gaussian state, where the post-selected modes have the given occupation numbers in `i` and `j`;
with `normalize=True` it is divided by the sum of the diagonal elements. -/
theorem densityMatrixPost_correct (hN : N ≠ 0) (mu : ℕ → ℝ) (cov : ℕ → ℕ → ℝ) (hbar : ℝ) (hh : 0 < hbar) (hph : Physical (phase N N cov) hbar)
    (htol : (∀ i < 2 * N, mu i = 0) ∨ (1 / 10 ^ 10 : ℝ) ≤ Real.sqrt ((∑ i ∈ Finset.range (2 * N), mu i ^ 2) / hbar))
    (post : List (ℕ × ℕ)) (hnd : (post.map Prod.fst).Nodup) (hlt : ∀ p ∈ post, p.1 < N) (cutoff : ℕ) :
    ∃ ρ, IsFockMatrix N mu cov hbar ρ ∧ ∀ normalize : Bool, ∃ T,
      densityMatrixPost (isClose 0 0) N mu cov post normalize cutoff hbar = .ok T ∧
      ∀ i j : Fin N → ℕ, Selects post i → Selects post j → (∀ m ∈ freeModes N post, i m < cutoff ∧ j m < cutoff) →
        T ((freeModes N post).flatMap fun m => [i m, j m]) = if normalize then ρ i j / ∑ k ∈ selected N post cutoff, ρ k k else ρ i j := by
  obtain ⟨ρ, raw, pref, hF, hpref, hraw⟩ := dme_raw hN mu cov hbar _ hh hph htol
  refine ⟨ρ, hF, fun normalize => ?_⟩
  have hM : N - post.length = (freeModes N post).length := by have := freeModes_length post hnd hlt; omega
  have hle : ¬ post.length > N := by have := freeModes_length post hnd hlt; omega
  set M := (freeModes N post).length with hMdef
  let v : List ℕ → ℂ := fun idx => raw (fillFn N post (idx.take M)) (fillFn N post (idx.drop M))
  have hstep : ∀ idx ∈ ndindex (List.replicate (2 * M) cutoff),
      ((fillEl post idx ((List.range (2 * N)).map (· % N)) 0).bind fun el =>
        densityMatrixElement (isClose 0 0) N mu cov (el.take N) (el.drop N) false (1 / 10 ^ 10) hbar) = .ok (v idx) ∧
      idx = (freeModes N post).map (fillFn N post (idx.take M)) ++ (freeModes N post).map (fillFn N post (idx.drop M)) := by
    intro idx hidx
    rw [mem_ndindex_replicate] at hidx
    have e : idx = (freeModes N post).map (fillFn N post (idx.take M)) ++ (freeModes N post).map (fillFn N post (idx.drop M)) := by
      rw [fillFn_free post _ (by simp; omega), fillFn_free post _ (by simp; omega), List.take_append_drop]
    refine ⟨?_, e⟩
    have hf := fillEl_pair post _ _ (fillFn_selects (N := N) post hnd (idx.take M)) (fillFn_selects (N := N) post hnd (idx.drop M))
    rw [← e] at hf
    rw [hf]
    simp only [Except.bind]
    rw [List.take_left' (by simp), List.drop_left' (by simp)]
    exact (hraw _ _).1
  have hkey : ∀ a ∈ ndindex (List.replicate (2 * M) cutoff), ∀ b ∈ ndindex (List.replicate (2 * M) cutoff), sfEl M a = sfEl M b → v a = v b := by
    intro a ha b hb h
    rw [(hstep a ha).2, (hstep b hb).2, sfEl_eq, sfEl_eq] at h
    obtain ⟨h1, h2⟩ := flat2_inj _ _ _ _ _ h
    have e1 := selects_ext post (fillFn_selects post hnd _) (fillFn_selects post hnd _) h1
    have e2 := selects_ext post (fillFn_selects post hnd _) (fillFn_selects post hnd _) h2
    show raw _ _ = raw _ _
    rw [e1, e2]
  obtain ⟨T, hT, hTv, -⟩ := foldlM_update _ (sfEl M) _ v (fun idx hidx => (hstep idx hidx).1) hkey fun _ => 0
  have hval : ∀ i j : Fin N → ℕ, Selects post i → Selects post j → (∀ m ∈ freeModes N post, i m < cutoff ∧ j m < cutoff) →
      T ((freeModes N post).flatMap fun m => [i m, j m]) * (pref : ℂ) = ρ i j := by
    intro i j hi hj hlt
    have hmem : (freeModes N post).map j ++ (freeModes N post).map i ∈ ndindex (List.replicate (2 * M) cutoff) := by
      rw [mem_ndindex_replicate]
      refine ⟨by simp; omega, fun x hx => ?_⟩
      rcases List.mem_append.mp hx with hx | hx <;> obtain ⟨m, hm, rfl⟩ := List.mem_map.mp hx
      · exact (hlt m hm).2
      · exact (hlt m hm).1
    have h1 := hTv _ hmem
    rw [sfEl_eq] at h1
    rw [h1]
    show raw _ _ * _ = _
    rw [List.take_left' (by simp [hMdef]), List.drop_left' (by simp [hMdef]), fillFn_map post j hj, fillFn_map post i hi, (hraw _ _).2.2]
  have hunf : densityMatrixPost (isClose 0 0) N mu cov post normalize cutoff hbar = .ok (if normalize then
      fun idx => T idx * (pref : ℂ) / (((∑ k ∈ selected N post cutoff, ρ k k).re : ℝ) : ℂ) else fun idx => T idx * (pref : ℂ)) := by
    unfold densityMatrixPost
    simp only [bind, pure, Except.pure]
    rw [hpref]
    rw [show ∀ f : ℂ → Except PyErr (MArr ℂ), (Except.ok (pref : ℂ)).bind f = f pref from fun f => rfl, if_neg hle, hM]
    have hf : (fun (rho : MArr ℂ) (idx : List ℕ) => (fillEl post idx ((List.range (2 * N)).map (· % N)) 0).bind fun el =>
        (densityMatrixElement (isClose 0 0) N mu cov (el.take N) (el.drop N) false (1 / 10 ^ 10) hbar).bind fun a =>
          (Except.ok (Function.update rho (sfEl M idx) a) : Except PyErr (MArr ℂ))) =
        fun (T : MArr ℂ) (idx : List ℕ) => ((fillEl post idx ((List.range (2 * N)).map (· % N)) 0).bind fun el =>
          densityMatrixElement (isClose 0 0) N mu cov (el.take N) (el.drop N) false (1 / 10 ^ 10) hbar).bind fun a => Except.ok (Function.update T (sfEl M idx) a) := by
      funext rho idx
      rcases fillEl post idx ((List.range (2 * N)).map (· % N)) 0 with err | el <;> rfl
    rw [hf, hT]
    rw [show ∀ f : MArr ℂ → Except PyErr (MArr ℂ), (Except.ok T).bind f = f T from fun f => rfl]
    rcases normalize with _ | _
    · rfl
    · simp only [if_true]
      rw [trace_sum (N := N) post hnd]
      have hs : (∑ i ∈ selected N post cutoff, transposeT ((List.range M).map (2 * ·) ++ (List.range M).map (2 * · + 1)) (fun idx => T idx * (pref : ℂ))
          ((freeModes N post).map i ++ (freeModes N post).map i)) = ∑ k ∈ selected N post cutoff, ρ k k := by
        refine Finset.sum_congr rfl fun k hk => ?_
        rw [mem_selected post hnd] at hk
        rw [transpose_new]
        exact hval k k hk.1 hk.1 fun m hm => ⟨hk.2 m hm, hk.2 m hm⟩
      rw [hs]
  refine ⟨_, hunf, fun i j hi hj hlt => ?_⟩
  rcases normalize with _ | _
  · exact hval i j hi hj hlt
  · simp only [if_true]
    rw [hval i j hi hj hlt]
    congr 1
    have hre : (starRingEnd ℂ) (∑ k ∈ selected N post cutoff, ρ k k) = ∑ k ∈ selected N post cutoff, ρ k k := by
      rw [map_sum]
      exact Finset.sum_congr rfl fun k _ => fockMatrix_hermitian hF k k
    exact Complex.conj_eq_iff_re.mp hre

/-- the hypotheses of `densityMatrixPost_correct` hold for the vacuum of two modes, when one photon is post-selected in mode 0 -/
example : ∃ ρ, IsFockMatrix 2 (fun _ => 0) (vacuumState 2 2).cov 2 ρ ∧ ∀ normalize : Bool, ∃ T,
    densityMatrixPost (isClose 0 0) 2 (fun _ => 0) (vacuumState 2 2).cov [(0, 1)] normalize 5 2 = .ok T ∧
      ∀ i j : Fin 2 → ℕ, Selects [(0, 1)] i → Selects [(0, 1)] j → (∀ m ∈ freeModes 2 [(0, 1)], i m < 5 ∧ j m < 5) →
        T ((freeModes 2 [(0, 1)]).flatMap fun m => [i m, j m]) = if normalize then ρ i j / ∑ k ∈ selected 2 [(0, 1)] 5, ρ k k else ρ i j :=
  densityMatrixPost_correct (N := 2) (by norm_num) _ _ 2 (by norm_num) (physical_vacuum 2 2 (by norm_num)).1 (Or.inl fun _ _ => rfl) _ (by simp) (by simp) 5

end Verif.Props
