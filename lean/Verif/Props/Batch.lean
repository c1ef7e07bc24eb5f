/-
Properties C14 (`loop_hafnian_batch`) and C15 (`loop_hafnian_batch_gamma`).
-/
import Verif.Lemmas.BatchFront
import Verif.Props.Hermite

set_option linter.unusedSectionVars false
set_option linter.unusedSimpArgs false

namespace Verif.Props
open Verif Verif.Model

section generic
variable {K : Type} [Field K] [CharZero K]

theorem loopHafnianBatch_lh {pt : PowerTrace K} (hpt : PTSpec pt) (n : ℕ) (A : ℕ → ℕ → K) (D : ℕ → K)
    (hs : ∀ i < n + 1, ∀ j < n + 1, A i j = A j i) (fixed : List ℕ) (hn : fixed.length = n) (Nc : ℕ) (g : Bool)
    (hN : fixed.sum % 2 = 0 ∨ 1 ≤ Nc) :
    loopHafnianBatch pt (n + 1) (n + 1) A (n + 1) D fixed Nc g
      = .ok ((List.range (Nc + 1)).map fun k => lh D A (Spec.repeatedIndices (fixed ++ [k]))) := by
  set nz := (List.range fixed.length).filter fun i => fixed.getD i 0 ≠ 0 with hnz
  set fx := nz.map fun i => fixed.getD i 0 with hfxd
  have hlen : fx.length = nz.length := by simp [hfxd]
  set nzf : ℕ → ℕ := fun i => (nz ++ [n]).getD i 0 with hnzf
  have hnzlt : ∀ i ∈ nz, i < n := by
    intro i hi; rw [hnz, List.mem_filter] at hi; have := hi.1; simp at this; omega
  have hnzf_lt : ∀ i < fx.length + 1, nzf i < n + 1 := by
    intro i hi
    simp only [hnzf]
    rcases Nat.lt_or_ge i nz.length with h | h
    · have e : (nz ++ [n]).getD i 0 = nz[i] := by simp [List.getD_eq_getElem?_getD, List.getElem?_append_left h, h]
      rw [e]; have := hnzlt _ (List.getElem_mem h); omega
    · have : i = nz.length := by omega
      subst this; simp [List.getD_eq_getElem?_getD]
  have hfx : ∀ i < fx.length, 0 < fx.getD i 0 := by
    intro i hi
    have hi' : i < nz.length := by omega
    have e : fx.getD i 0 = fixed.getD nz[i] 0 := by simp [hfxd, List.getD_eq_getElem?_getD, hi']
    rw [e]
    have hall : ∀ x ∈ nz, fixed.getD x 0 ≠ 0 := by
      intro x hx; rw [hnz, List.mem_filter] at hx; simpa using hx.2
    exact Nat.pos_of_ne_zero (hall _ (List.getElem_mem hi'))
  have hss : ∀ i < fx.length + 1, ∀ j < fx.length + 1, A (nzf i) (nzf j) = A (nzf j) (nzf i) :=
    fun i hi j hj => hs _ (hnzf_lt i hi) _ (hnzf_lt j hj)
  have hmap : ∀ k, (Spec.repeatedIndices fx ++ List.replicate k fx.length).map nzf = Spec.repeatedIndices (fixed ++ [k]) := by
    intro k
    rw [repeatedIndices_snoc, ← repeatedIndices_nz fixed, List.map_append, List.map_replicate]
    have e1 : nzf fx.length = fixed.length := by simp [hnzf, hlen, List.getD_eq_getElem?_getD, hn]
    rw [e1]
    congr 1
    apply List.map_congr_left
    intro i hi
    have hi' : i < nz.length := by have := repeatedIndices_lt hi; rw [← hlen]; exact this
    change (nz ++ [n]).getD i 0 = nz.getD i 0
    rw [List.getD_eq_getElem?_getD, List.getD_eq_getElem?_getD, List.getElem?_append_left hi']
  have hlh : ∀ k, lh (fun i => D (nzf i)) (fun i j => A (nzf i) (nzf j)) (Spec.repeatedIndices fx ++ List.replicate k fx.length)
      = lh D A (Spec.repeatedIndices (fixed ++ [k])) := by
    intro k
    rw [← hmap k, lh_map]; rfl
  have hsumfx : (Spec.repeatedIndices fx).length = fixed.sum := by
    have := congrArg List.length (hmap 0)
    rw [repeatedIndices_length] at this
    simpa using this
  obtain ⟨edges, odd, hm, hp, hpos⟩ := matchedReps_spec fx
  have hEl : 2 * (edges.map (·.2.2)).sum + odd.toList.length = fixed.sum := by
    have := hp.length_eq; rw [List.length_append, el_length, hsumfx] at this; exact this
  unfold loopHafnianBatch
  rw [if_neg (by simp), if_neg (by simp), if_neg (by omega)]
  have hbz : batchNz fixed = nz ++ [n] := by rw [batchNz_eq, ← hnz, hn]
  simp only [hbz, List.dropLast_concat]
  change (matchedReps fx >>= _) = _
  rw [hm]
  cases odd with
  | none =>
    have hp' : (el edges).Perm (Spec.repeatedIndices fx) := by simpa using hp
    show Except.ok _ = _
    congr 1
    have hN' : 2 * (Nc / 2) + Nc % 2 = Nc := by omega
    rw [hN']
    apply List.map_congr_left
    intro k hk
    have hk : k < Nc + 1 := by simpa using hk
    rw [← hlh k]
    exact batchEven_branch hpt (fun i j => A (nzf i) (nzf j)) (fun i => D (nzf i)) fx hss hfx edges hpos hp' (Nc / 2) (Nc % 2)
      (by omega) g k (by omega)
  | some o =>
    have hp' : (el edges ++ [o]).Perm (Spec.repeatedIndices fx) := by simpa using hp
    have hNc : 1 ≤ Nc := by
      rcases hN with h | h
      · simp at hEl; omega
      · exact h
    show (if Nc = 0 then _ else _) = _
    rw [if_neg (by omega)]
    show Except.ok _ = _
    congr 1
    have hN' : 2 * ((Nc - 1) / 2) + (1 - Nc % 2) + 2 = Nc + 1 := by omega
    rw [hN']
    apply List.map_congr_left
    intro k hk
    have hk : k < Nc + 1 := by simpa using hk
    rw [← hlh k]
    exact batchOdd_branch hpt (fun i j => A (nzf i) (nzf j)) (fun i => D (nzf i)) fx hss hfx edges o hpos hp' ((Nc - 1) / 2) (1 - Nc % 2)
      (by omega) g k (by omega)

/-- the odd case with `N_cutoff = 0` -/
theorem loopHafnianBatch_zero_generic (pt : PowerTrace K) (n : ℕ) (A : ℕ → ℕ → K) (D : ℕ → K) (fixed : List ℕ)
    (hn : fixed.length = n) (hodd : fixed.sum % 2 = 1) (g : Bool) :
    loopHafnianBatch pt (n + 1) (n + 1) A (n + 1) D fixed 0 g = .ok [0] := by
  set nz := (List.range fixed.length).filter fun i => fixed.getD i 0 ≠ 0 with hnz
  set fx := nz.map fun i => fixed.getD i 0 with hfxd
  have hsumfx : (Spec.repeatedIndices fx).length = fixed.sum := by
    have := congrArg List.length (repeatedIndices_nz fixed)
    rw [repeatedIndices_length, List.length_map] at this
    exact this
  obtain ⟨edges, odd, hm, hp, hpos⟩ := matchedReps_spec fx
  have hEl : 2 * (edges.map (·.2.2)).sum + odd.toList.length = fixed.sum := by
    have := hp.length_eq; rw [List.length_append, el_length, hsumfx] at this; exact this
  unfold loopHafnianBatch
  rw [if_neg (by simp), if_neg (by simp), if_neg (by omega)]
  have hbz : batchNz fixed = nz ++ [n] := by rw [batchNz_eq, ← hnz, hn]
  simp only [hbz, List.dropLast_concat]
  change (matchedReps fx >>= _) = _
  rw [hm]
  cases odd with
  | none => simp at hEl; omega
  | some o => rfl

/-! ### the gamma variant -/

/-- a loop over rows in which iteration `k` only reads and writes row `k` -/
theorem forRange_rows {α : Type*} (nD : ℕ) (H0 : ℕ → α) (body : ℕ → (ℕ → α) → ℕ → α) (row : ℕ → α → α)
    (hother : ∀ k H k', k' ≠ k → body k H k' = H k') (hself : ∀ k H, body k H k = row k (H k)) (k : ℕ) (hk : k < nD) :
    forRange nD H0 body k = row k (H0 k) := by
  have : ∀ m, (∀ k < m, forRange m H0 body k = row k (H0 k)) ∧ ∀ k, m ≤ k → forRange m H0 body k = H0 k := by
    intro m
    induction m with
    | zero => exact ⟨fun k hk => by omega, fun k _ => rfl⟩
    | succ m ih =>
      rw [forRange_succ]
      constructor
      · intro k hk
        rcases Nat.lt_or_ge k m with h | h
        · rw [hother _ _ _ (by omega), ih.1 k h]
        · have : k = m := by omega
          subst this
          rw [hself, ih.2 k le_rfl]
      · intro k hk
        rw [hother _ _ _ (by omega), ih.2 k (by omega)]
  exact (this nD).1 k hk

/-- projection of an inner loop onto a row -/
theorem forRange2_proj {α β : Type*} (a b : ℕ) (π : α → β) (s : α) (body : ℕ → α → α) (body' : ℕ → β → β)
    (h : ∀ n s, π (body n s) = body' n (π s)) : π (forRange2 a b s body) = forRange2 a b (π s) body' := by
  rw [forRange2_eq, forRange2_eq]
  induction b - a with
  | zero => rfl
  | succ m ih => rw [forRange_succ, forRange_succ, h, ih]

theorem upd2_row_self (H : ℕ → ℕ → K) (k j : ℕ) (v : K) : upd2 H k j v k = Function.update (H k) j v := by
  funext j'
  by_cases h : j' = j
  · subst h; simp [upd2]
  · rw [Function.update_of_ne h]; simp [upd2, h]

theorem upd2_row_other (H : ℕ → ℕ → K) (k j : ℕ) (v : K) (k' : ℕ) (h : k' ≠ k) : upd2 H k j v k' = H k' := by
  funext j'; simp [upd2, h]

theorem forRange2_row_other (a b k' : ℕ) (H : ℕ → ℕ → K) (body : ℕ → (ℕ → ℕ → K) → ℕ → ℕ → K)
    (hb : ∀ n s, body n s k' = s k') : forRange2 a b H body k' = H k' := by
  rw [forRange2_eq]
  induction b - a with
  | zero => rfl
  | succ m ih => rw [forRange_succ, hb, ih]

theorem gammaEvenStep_row (pt : PowerTrace K) (A : ℕ → ℕ → K) (D : ℕ → ℕ → K) (fx : List ℕ) (bm oc : ℕ) (g : Bool) (j nD k : ℕ) (hk : k < nD) :
    gammaEvenStep pt A D fx bm oc g j nD k = batchEvenStep pt A (D k) fx bm oc g j := by
  unfold gammaEvenStep batchEvenStep
  simp only
  set val : ℕ → ℕ → K := fun k Ndet =>
        (precomputeBinoms ((bm :: fx).foldl max 0 + oc) (Ndet / 2) ((findKeptEdges j (bm :: fx)).getD 0 0) : K) * batchBinomProd ((bm :: fx).foldl max 0 + oc) (bm :: fx) (findKeptEdges j (bm :: fx))
          * (-1 : K) ^ ((2 * fx.sum + Ndet) / 2 - (findKeptEdges j (bm :: fx)).sum)
          * (if Ndet % 2 = 0 then fLoop pt (nonzeroRows (keptWeights g (bm :: fx) (findKeptEdges j (bm :: fx)))).length (getAXS (keptWeights g (bm :: fx) (findKeptEdges j (bm :: fx))) A) (getAXS (keptWeights g (bm :: fx) (findKeptEdges j (bm :: fx))) A) (getXDS (keptWeights g (bm :: fx) (findKeptEdges j (bm :: fx))) (D k)) (getDS (keptWeights g (bm :: fx) (findKeptEdges j (bm :: fx))) (D k)) (2 * fx.sum + 2 * bm + oc) ((2 * fx.sum + Ndet) / 2)
            else fLoopOdd pt (nonzeroRows (keptWeights g (bm :: fx) (findKeptEdges j (bm :: fx)))).length (getAXS (keptWeights g (bm :: fx) (findKeptEdges j (bm :: fx))) A) (getAXS (keptWeights g (bm :: fx) (findKeptEdges j (bm :: fx))) A) (getXDS (keptWeights g (bm :: fx) (findKeptEdges j (bm :: fx))) (D k)) (getDS (keptWeights g (bm :: fx) (findKeptEdges j (bm :: fx))) (D k)) (2 * fx.sum + 2 * bm + oc) (D k 0) (getXDS (keptWeights g (bm :: fx) (findKeptEdges j (bm :: fx))) (A 0)) (2 * fx.sum + Ndet)) with hval
  refine (forRange_rows nD _ _ (fun k h => forRange2 (2 * (findKeptEdges j (bm :: fx)).getD 0 0) (2 * bm + oc + 1) h (fun n H => Function.update H n (H n + val k n))) ?_ ?_ k hk).trans ?_
  · intro k H k' hk'
    apply forRange2_row_other
    intro n s
    split <;> exact upd2_row_other _ _ _ _ _ hk'
  · intro k H
    refine (forRange2_proj _ _ (fun H : ℕ → ℕ → K => H k) _ _ (fun n H => Function.update H n (H n + val k n)) (fun n s => ?_))
    beta_reduce
    simp only [hval]
    split
    · rw [upd2_row_self]
    · rw [upd2_row_self]
  · funext i
    rw [forRange2_slots _ _ (val k) _ _ (fun _ _ => rfl) i, forRange2_slots _ _ (val k) _ _ ?_ i]
    intro n H
    simp only [hval]
    split <;> rfl

theorem gammaOddStep_row (pt : PowerTrace K) (A : ℕ → ℕ → K) (D : ℕ → ℕ → K) (fx : List ℕ) (bm ec : ℕ) (g : Bool) (j nD k : ℕ) (hk : k < nD) (i : ℕ) :
    gammaOddStep pt A D fx bm ec g j nD k i
      = (if i = 0 then batchOddZero pt A (D k) fx bm ec g j else 0) + batchOddStep pt A (D k) fx bm ec g j i := by
  unfold batchOddZero batchOddStep
  simp only
  set val : ℕ → ℕ → K := fun k Ndet =>
        (precomputeBinoms ((bm :: 1 :: fx).foldl max 0 + ec) ((Ndet - 1) / 2) ((findKeptEdges j (bm :: 1 :: fx)).getD 0 0) : K) * batchBinomProd ((bm :: 1 :: fx).foldl max 0 + ec) (bm :: 1 :: fx) (findKeptEdges j (bm :: 1 :: fx))
          * (-1 : K) ^ ((2 * fx.sum + 1 + Ndet) / 2 - (findKeptEdges j (bm :: 1 :: fx)).sum)
          * (if (2 * fx.sum + 1 + Ndet) % 2 = 0 then fLoop pt (nonzeroRows (keptWeights g (bm :: 1 :: fx) (findKeptEdges j (bm :: 1 :: fx)))).length (getAXS (keptWeights g (bm :: 1 :: fx) (findKeptEdges j (bm :: 1 :: fx))) A) (getAXS (keptWeights g (bm :: 1 :: fx) (findKeptEdges j (bm :: 1 :: fx))) A) (getXDS (keptWeights g (bm :: 1 :: fx) (findKeptEdges j (bm :: 1 :: fx))) (D k)) (getDS (keptWeights g (bm :: 1 :: fx) (findKeptEdges j (bm :: 1 :: fx))) (D k)) (2 * fx.sum + 1 + 2 * bm + ec + 1) ((2 * fx.sum + 1 + Ndet) / 2)
            else fLoopOdd pt (nonzeroRows (keptWeights g (bm :: 1 :: fx) (findKeptEdges j (bm :: 1 :: fx)))).length (getAXS (keptWeights g (bm :: 1 :: fx) (findKeptEdges j (bm :: 1 :: fx))) A) (getAXS (keptWeights g (bm :: 1 :: fx) (findKeptEdges j (bm :: 1 :: fx))) A) (getXDS (keptWeights g (bm :: 1 :: fx) (findKeptEdges j (bm :: 1 :: fx))) (D k)) (getDS (keptWeights g (bm :: 1 :: fx) (findKeptEdges j (bm :: 1 :: fx))) (D k)) (2 * fx.sum + 1 + 2 * bm + ec + 1) (D k 0) (getXDS (keptWeights g (bm :: 1 :: fx) (findKeptEdges j (bm :: 1 :: fx))) (A 0)) (2 * fx.sum + 1 + Ndet)) with hval
  set z : ℕ → K := fun k => if (findKeptEdges j (bm :: 1 :: fx)).getD 0 0 = 0 ∧ (findKeptEdges j (bm :: 1 :: fx)).getD 1 0 = 0 then
      batchBinomProd ((bm :: 1 :: fx).foldl max 0 + ec) (bm :: 1 :: fx) (findKeptEdges j (bm :: 1 :: fx)) * (-1 : K) ^ ((2 * fx.sum + 1) / 2 - (findKeptEdges j (bm :: 1 :: fx)).sum) *
        fLoopOdd pt (nonzeroRows (keptWeights g (bm :: 1 :: fx) (findKeptEdges j (bm :: 1 :: fx)))).length (getAXS (keptWeights g (bm :: 1 :: fx) (findKeptEdges j (bm :: 1 :: fx))) A) (getAXS (keptWeights g (bm :: 1 :: fx) (findKeptEdges j (bm :: 1 :: fx))) A) (getXDS (keptWeights g (bm :: 1 :: fx) (findKeptEdges j (bm :: 1 :: fx))) (D k)) (getDS (keptWeights g (bm :: 1 :: fx) (findKeptEdges j (bm :: 1 :: fx))) (D k)) (2 * fx.sum + 1) (D k 1) (getXDS (keptWeights g (bm :: 1 :: fx) (findKeptEdges j (bm :: 1 :: fx))) (A 1)) (2 * fx.sum + 1)
      else 0 with hz
  set lo := 2 * (findKeptEdges j (bm :: 1 :: fx)).getD 0 0 + 1 with hlo
  have hrow : ∀ k < nD, gammaOddStep pt A D fx bm ec g j nD k = forRange2 lo (2 * bm + ec + 2) (Function.update (fun _ => (0 : K)) 0 (z k))
      (fun n H => Function.update H n (H n + val k n)) := by
    intro k hk
    unfold gammaOddStep
    simp only
    refine (forRange_rows nD _ _ (fun k h => forRange2 lo (2 * bm + ec + 2) (Function.update h 0 (h 0 + z k)) (fun n H => Function.update H n (H n + val k n))) ?_ ?_ k hk).trans ?_
    · intro k H k' hk'
      refine (forRange2_row_other _ _ k' _ _ ?_).trans ?_
      · intro n s
        split <;> exact upd2_row_other _ _ _ _ _ hk'
      · split
        · exact upd2_row_other _ _ _ _ _ hk'
        · rfl
    · intro k H
      refine (forRange2_proj _ _ (fun H : ℕ → ℕ → K => H k) _ _ (fun n H => Function.update H n (H n + val k n)) (fun n s => ?_)).trans ?_
      · beta_reduce
        simp only [hval]
        split
        · rw [upd2_row_self]
        · rw [upd2_row_self]
      · beta_reduce
        congr 1
        simp only [hz]
        split
        · rw [upd2_row_self]
        · rw [add_zero, Function.update_eq_self]
    · beta_reduce
      rw [zero_add]
  refine (congrFun (hrow k hk) i).trans ?_
  rw [forRange2_slots lo _ (val k) _ _ (fun _ _ => rfl) i, forRange2_slots lo _ (val k) _ _ ?_ i]
  · rw [zero_add]
    congr 1
    by_cases h : i = 0
    · subst h; simp only [Function.update_self, if_true]; rfl
    · rw [Function.update_of_ne h, if_neg h]
  · intro n H
    simp only [hval]
    split <;> rfl

theorem calcGammaEven_row (pt : PowerTrace K) (A : ℕ → ℕ → K) (nD : ℕ) (D : ℕ → ℕ → K) (fx : List ℕ) (bm oc : ℕ) (g : Bool) (k : ℕ) (hk : k < nD) (i : ℕ) :
    calcGammaEven pt A nD D fx bm oc g k i = calcBatchEven pt A (D k) fx bm oc g i := by
  have : forRange ((bm :: fx).map (· + 1)).prod (fun _ _ => 0) (fun j H k i => H k i + gammaEvenStep pt A D fx bm oc g j nD k i) k i
      = forRange ((bm :: fx).map (· + 1)).prod (fun _ => 0) (fun j H i => H i + batchEvenStep pt A (D k) fx bm oc g j i) i := by
    generalize ((bm :: fx).map (· + 1)).prod = m
    induction m with
    | zero => rfl
    | succ m ih => rw [forRange_succ, forRange_succ, ih, gammaEvenStep_row pt A D fx bm oc g m nD k hk]
  unfold calcGammaEven calcBatchEven
  cases g
  · exact this
  · exact congrArg (· * _) this

theorem calcGammaOdd_row (pt : PowerTrace K) (A : ℕ → ℕ → K) (nD : ℕ) (D : ℕ → ℕ → K) (fx : List ℕ) (bm ec : ℕ) (g : Bool) (k : ℕ) (hk : k < nD) (i : ℕ) :
    calcGammaOdd pt A nD D fx bm ec g k i = calcBatchOdd pt A (D k) fx bm ec g i := by
  have : ∀ i, forRange ((bm :: 1 :: fx).map (· + 1)).prod (fun _ _ => 0) (fun j H k i => H k i + gammaOddStep pt A D fx bm ec g j nD k i) k i
      = forRange ((bm :: 1 :: fx).map (· + 1)).prod (fun _ => 0) (fun j H i =>
        Function.update H 0 (H 0 + batchOddZero pt A (D k) fx bm ec g j) i + batchOddStep pt A (D k) fx bm ec g j i) i := by
    generalize ((bm :: 1 :: fx).map (· + 1)).prod = m
    induction m with
    | zero => intro i; rfl
    | succ m ih =>
      intro i
      rw [forRange_succ, forRange_succ, ih, gammaOddStep_row pt A D fx bm ec g m nD k hk, ← add_assoc]
      congr 1
      by_cases h : i = 0
      · subst h; rw [Function.update_self, if_pos rfl]
      · rw [Function.update_of_ne h, if_neg h, add_zero]
  unfold calcGammaOdd calcBatchOdd batchOddBody
  cases g
  · exact this i
  · exact congrArg (· * _) (this i)

/-- **C15** `loop_hafnian_batch_gamma`: whatever the arguments (no symmetry or shape hypothesis, any cutoff), it succeeds or fails exactly as
`loop_hafnian_batch` does, and row `i` of its result is `loop_hafnian_batch` evaluated with the displacement row `D[i]`. -/
theorem batchGamma_rows (pt : PowerTrace K) (rows cols : ℕ) (A : ℕ → ℕ → K) (nD dl : ℕ) (D : ℕ → ℕ → K) (fixed : List ℕ) (Nc : ℕ) (g : Bool) :
    (∃ e, loopHafnianBatchGamma pt rows cols A nD dl D fixed Nc g = .error e ∧
        ∀ i, loopHafnianBatch pt rows cols A dl (D i) fixed Nc g = .error e) ∨
    (∃ H, loopHafnianBatchGamma pt rows cols A nD dl D fixed Nc g = .ok H ∧ H.length = nD ∧
        ∀ i (hi : i < H.length), loopHafnianBatch pt rows cols A dl (D i) fixed Nc g = .ok H[i]) := by
  unfold loopHafnianBatchGamma loopHafnianBatch
  by_cases h1 : cols ≠ rows
  · left; refine ⟨.assertionError, ?_, fun i => ?_⟩ <;> rw [if_pos h1]
  by_cases h2 : dl ≠ rows
  · left; refine ⟨.assertionError, ?_, fun i => ?_⟩ <;> rw [if_neg h1, if_pos h2]
  by_cases h3 : fixed.length + 1 ≠ rows
  · left; refine ⟨.assertionError, ?_, fun i => ?_⟩ <;> rw [if_neg h1, if_neg h2, if_pos h3]
  right
  simp only [if_neg h1, if_neg h2, if_neg h3]
  obtain ⟨edges, odd, hm, -, -⟩ := matchedReps_spec ((batchNz fixed).dropLast.map fun i => fixed.getD i 0)
  simp only [hm, bind, Except.bind, pure, Except.pure]
  cases odd with
  | none =>
    dsimp only
    refine ⟨_, rfl, by simp, ?_⟩
    intro i hi
    have hi' : i < nD := by simpa using hi
    simp only [List.getElem_map, List.getElem_range]
    refine congrArg Except.ok (List.map_congr_left fun k _ => ?_)
    rw [calcGammaEven_row pt _ nD _ _ _ _ g i hi' k]
  | some o =>
    dsimp only
    by_cases h0 : Nc = 0
    · simp only [if_pos h0]
      refine ⟨_, rfl, by simp, ?_⟩
      intro i hi
      simp
    · simp only [if_neg h0]
      refine ⟨_, rfl, by simp, ?_⟩
      intro i hi
      have hi' : i < nD := by simpa using hi
      simp only [List.getElem_map, List.getElem_range]
      refine congrArg Except.ok (List.map_congr_left fun k _ => ?_)
      rw [calcGammaOdd_row pt _ nD _ _ _ _ g i hi' k]

end generic

section field
variable {K : Type} [RCLike K]

/-- **C14** `loop_hafnian_batch(A, D, fixed_reps, N_cutoff)`: for every symmetric matrix of size `n+1`, loop weights `D`, numbers of repetitions of
the first `n` modes and cutoff (not zero when the total number of fixed repetitions is odd), with either formula, entry `k ≤ N_cutoff` of the result
is the loop hafnian of the matrix in which the last mode is repeated `k` times. -/
theorem loopHafnianBatch_correct {n : ℕ} (A : Matrix (Fin (n + 1)) (Fin (n + 1)) K) (hA : A.IsSymm) (junk : ℕ → ℕ → K) (D : Fin (n + 1) → K) (junkD : ℕ → K)
    (fixed : List ℕ) (hn : fixed.length = n) (Nc : ℕ) (g : Bool) (hN : fixed.sum % 2 = 0 ∨ 1 ≤ Nc) :
    loopHafnianBatch powertrace (n + 1) (n + 1) (ofMatrix A junk) (n + 1) (vecEntries D junkD) fixed Nc g
      = .ok ((List.range (Nc + 1)).map fun k =>
          Spec.lhaf (Spec.repeatedMatrixLoop (ofMatrix A fun _ _ => 0) (vecEntries D fun _ => 0) (fixed ++ [k]))) := by
  rw [loopHafnianBatch_lh powertrace_PTSpec n (ofMatrix A junk) (vecEntries D junkD) ?_ fixed hn Nc g hN]
  · congr 1
    apply List.map_congr_left
    intro k _
    rw [spec_lhaf_repeated]
    apply lh_congr
    · intro i hi
      have := repeatedIndices_lt hi
      rw [List.length_append, List.length_singleton] at this
      simp only [vecEntries]
      rw [dif_pos (by omega), dif_pos (by omega)]
    · intro i hi j hj
      have h1 := repeatedIndices_lt hi
      have h2 := repeatedIndices_lt hj
      rw [List.length_append, List.length_singleton] at h1 h2
      simp only [ofMatrix]
      rw [dif_pos (by omega), dif_pos (by omega)]
  · intro i hi j hj
    simp only [ofMatrix]
    rw [dif_pos ⟨hi, hj⟩, dif_pos ⟨hj, hi⟩]
    exact (hA.apply _ _).symm

/-- **C14** a shape mismatch is an `AssertionError`. -/
theorem loopHafnianBatch_assert (rows cols dl : ℕ) (A : ℕ → ℕ → K) (D : ℕ → K) (fixed : List ℕ) (Nc : ℕ) (g : Bool)
    (h : cols ≠ rows ∨ dl ≠ rows ∨ fixed.length + 1 ≠ rows) :
    loopHafnianBatch powertrace rows cols A dl D fixed Nc g = .error .assertionError := by
  unfold loopHafnianBatch
  by_cases h1 : cols ≠ rows
  · rw [if_pos h1]
  by_cases h2 : dl ≠ rows
  · rw [if_neg h1, if_pos h2]
  · rw [if_neg h1, if_neg h2, if_pos (by tauto)]

/-- **C14** (finding) with an odd number of fixed repetitions and `N_cutoff = 0` the result is `[0]`, whatever the matrix … -/
theorem loopHafnianBatch_zero (n : ℕ) (A : ℕ → ℕ → K) (D : ℕ → K) (fixed : List ℕ) (hn : fixed.length = n) (hodd : fixed.sum % 2 = 1) (g : Bool) :
    loopHafnianBatch powertrace (n + 1) (n + 1) A (n + 1) D fixed 0 g = .ok [0] :=
  loopHafnianBatch_zero_generic powertrace n A D fixed hn hodd g

/-- … which is wrong: `A = 0`, `D = (1, 1)`, `fixed_reps = [1]`. -/
theorem loopHafnianBatch_zero_wrong :
    ∃ (A : Matrix (Fin 2) (Fin 2) ℂ) (D : Fin 2 → ℂ), A.IsSymm ∧
      loopHafnianBatch powertrace 2 2 (ofMatrix A fun _ _ => 0) 2 (vecEntries D fun _ => 0) [1] 0 true = .ok [0] ∧
      Spec.lhaf (Spec.repeatedMatrixLoop (ofMatrix A fun _ _ => 0) (vecEntries D fun _ => 0) ([1] ++ [0])) ≠ 0 := by
  refine ⟨0, fun _ => 1, Matrix.isSymm_zero, loopHafnianBatch_zero 1 _ _ [1] rfl rfl true, ?_⟩
  rw [spec_lhaf_repeated]
  have : Spec.repeatedIndices ([1] ++ [0]) = [0] := rfl
  rw [this]
  simp [lh_cons, lh, lhN, eSum_nil, vecEntries]

/-- the hypotheses of `loopHafnianBatch_correct` are met by a non-trivial case -/
example : (!![1, 2; 2, 3] : Matrix (Fin 2) (Fin 2) ℂ).IsSymm ∧ ([3] : List ℕ).length = 1 ∧ (([3] : List ℕ).sum % 2 = 0 ∨ 1 ≤ 4) := by
  refine ⟨?_, rfl, Or.inr (by norm_num)⟩
  ext i j; fin_cases i <;> fin_cases j <;> simp

end field

end Verif.Props
