/-
C53: the parallel loops of the hafnian, permanent and torontonian functions give the same result for every schedule.
-/
import Verif.Spec.Schedule
import Verif.Model.HafnianCore
import Verif.Model.Batch
import Verif.Model.PermanentOther
import Verif.Model.Torontonian
import Verif.Props.Torontonian
import Verif.Lemmas.Brs
import Verif.Props.Permanent
import Mathlib.Tactic.Linarith

set_option linter.unusedSimpArgs false

namespace Verif.Props
open Verif Verif.Model Verif.Model.Tor Verif.Model.Conv Verif.Model.Symp Verif.Spec Verif.Lemmas

section generic
variable {σ : Type} [AddCommMonoid σ]

/-- the invariant of a parallel execution: accumulated plus outstanding contributions are constant -/
theorem parStep_inv (body : ℕ → σ → Except PyErr σ) (g : ℕ → σ) (hb : ∀ j s s', body j s = .ok s' → s' = s + g j) (st st' : ParState σ) (h : ParStep body st st') :
    (st'.map fun t => t.2 + (t.1.map g).sum).sum = (st.map fun t => t.2 + (t.1.map g).sum).sum := by
  cases h with
  | run before after j todo s s' h =>
    rw [hb j s s' h]
    simp only [List.map_append, List.map_cons, List.sum_append, List.sum_cons]
    congr 2
    abel

theorem parRun_inv (body : ℕ → σ → Except PyErr σ) (g : ℕ → σ) (hb : ∀ j s s', body j s = .ok s' → s' = s + g j) (st st' : ParState σ)
    (h : Relation.ReflTransGen (ParStep body) st st') :
    (st'.map fun t => t.2 + (t.1.map g).sum).sum = (st.map fun t => t.2 + (t.1.map g).sum).sum := by
  induction h with
  | refl => rfl
  | tail _ h ih => rw [parStep_inv body g hb _ _ h, ih]

/-- every iteration that is still to be run, or that has been run, is one of the loop -/
theorem parRun_mem (body : ℕ → σ → Except PyErr σ) (P : ℕ → Prop) (st st' : ParState σ) (h : Relation.ReflTransGen (ParStep body) st st')
    (h0 : ∀ t ∈ st, ∀ j ∈ t.1, P j) : ∀ t ∈ st', ∀ j ∈ t.1, P j := by
  induction h with
  | refl => exact h0
  | tail _ h ih =>
    cases h with
    | run before after j todo s s' h =>
      intro t ht i hi
      rw [List.mem_append, List.mem_cons] at ht
      rcases ht with ht | rfl | ht
      · exact ih t (by simp [ht]) i hi
      · exact ih (j :: todo, s) (by simp) i (by simp at hi ⊢; right; exact hi)
      · exact ih t (by simp [ht]) i hi

theorem chunk_sum (g : ℕ → σ) (chunks : List (List ℕ)) :
    ((chunks.map fun c => (c, (0 : σ))).map fun t => t.2 + (t.1.map g).sum).sum = (chunks.flatten.map g).sum := by
  induction chunks with
  | nil => simp
  | cons c cs ih =>
    simp only [List.map_cons, List.sum_cons, List.flatten_cons, List.map_append, List.sum_append, zero_add]
    rw [← ih]

theorem foldl_add_zero (l : List σ) : l.foldl (· + ·) 0 = l.sum := by
  have : ∀ (l : List σ) (z : σ), l.foldl (· + ·) z = z + l.sum := by
    intro l
    induction l with
    | nil => intro z; simp
    | cons a l ih => intro z; rw [List.foldl_cons, ih, List.sum_cons, add_assoc]
  rw [this, zero_add]

/-- an iteration that succeeds with one accumulator succeeds with all: it adds `g j`, or raises `e0` -/
structure Additive (iters : List ℕ) (body : ℕ → σ → Except PyErr σ) (g : ℕ → σ) (bad : ℕ → Prop) (e0 : PyErr) : Prop where
  ok : ∀ j ∈ iters, ¬ bad j → ∀ s, body j s = .ok (s + g j)
  err : ∀ j ∈ iters, bad j → ∀ s, body j s = .error e0

/-- C53: every parallel execution of a loop whose iterations add to the accumulator (or raise) gives the sequential result. -/
theorem parallelFor_eq_sequential (iters : List ℕ) (body : ℕ → σ → Except PyErr σ) (g : ℕ → σ) (bad : ℕ → Prop) (e0 : PyErr)
    (hb : Additive iters body g bad e0) (r : Except PyErr σ) (h : ParallelFor iters body r) :
    r = iters.foldlM (fun s j => body j s) 0 := by
  have hseq : ∀ l : List ℕ, (∀ j ∈ l, j ∈ iters) → (∀ j ∈ l, ¬ bad j) → ∀ z, l.foldlM (fun s j => body j s) z = .ok (z + (l.map g).sum) := by
    intro l
    induction l with
    | nil => intro _ _ z; simp [pure, Except.pure]
    | cons a l ih =>
      intro hl hnb z
      rw [List.foldlM_cons, hb.ok a (hl a (by simp)) (hnb a (by simp)) z]
      simp only [bind, Except.bind]
      rw [ih (fun j hj => hl j (by simp [hj])) (fun j hj => hnb j (by simp [hj])), List.map_cons, List.sum_cons, add_assoc]
  have hseqe : ∀ l : List ℕ, (∀ j ∈ l, j ∈ iters) → (∃ j ∈ l, bad j) → ∀ z, l.foldlM (fun s j => body j s) z = .error e0 := by
    intro l
    induction l with
    | nil => intro _ h; obtain ⟨j, hj, _⟩ := h; simp at hj
    | cons a l ih =>
      intro hl hex z
      rw [List.foldlM_cons]
      by_cases ha : bad a
      · rw [hb.err a (hl a (by simp)) ha z]; rfl
      · rw [hb.ok a (hl a (by simp)) ha z]
        simp only [bind, Except.bind]
        refine ih (fun j hj => hl j (by simp [hj])) ?_ _
        obtain ⟨j, hj, hbj⟩ := hex
        rcases List.mem_cons.mp hj with rfl | hj
        · exact absurd hbj ha
        · exact ⟨j, hj, hbj⟩
  -- a body that agrees with `body` on the iterations and always adds
  have hmem0 : ∀ chunks : List (List ℕ), chunks.flatten.Perm iters → ∀ t ∈ (chunks.map fun c => (c, (0 : σ))), ∀ j ∈ t.1, j ∈ iters := by
    intro chunks hc t ht j hj
    obtain ⟨c, hcc, rfl⟩ := List.mem_map.mp ht
    exact hc.subset (List.mem_flatten.mpr ⟨c, hcc, hj⟩)
  have hstep : ∀ st st', ParStep body st st' → (∀ t ∈ st, ∀ j ∈ t.1, j ∈ iters) →
      (st'.map fun t => t.2 + (t.1.map g).sum).sum = (st.map fun t => t.2 + (t.1.map g).sum).sum ∧
      (∀ j, bad j → (∃ t ∈ st, j ∈ t.1) → ∃ t ∈ st', j ∈ t.1) := by
    intro st st' h hm
    cases h with
    | run before after j todo s s' h =>
      have hj : j ∈ iters := hm (j :: todo, s) (by simp) j (by simp)
      have hnb : ¬ bad j := by
        intro hbad
        rw [hb.err j hj hbad s] at h
        cases h
      rw [hb.ok j hj hnb s] at h
      injection h with h
      subst h
      refine ⟨?_, ?_⟩
      · simp only [List.map_append, List.map_cons, List.sum_append, List.sum_cons]
        congr 2
        abel
      · rintro i hi ⟨t, ht, hit⟩
        rw [List.mem_append, List.mem_cons] at ht
        rcases ht with ht | rfl | ht
        · exact ⟨t, by simp [ht], hit⟩
        · refine ⟨(todo, s + g j), by simp, ?_⟩
          rcases List.mem_cons.mp hit with rfl | hit
          · exact absurd hi hnb
          · exact hit
        · exact ⟨t, by simp [ht], hit⟩
  have hrun : ∀ st st', Relation.ReflTransGen (ParStep body) st st' → (∀ t ∈ st, ∀ j ∈ t.1, j ∈ iters) →
      (st'.map fun t => t.2 + (t.1.map g).sum).sum = (st.map fun t => t.2 + (t.1.map g).sum).sum ∧
      (∀ j, bad j → (∃ t ∈ st, j ∈ t.1) → ∃ t ∈ st', j ∈ t.1) := by
    intro st st' h hm
    induction h with
    | refl => exact ⟨rfl, fun _ _ h => h⟩
    | @tail b c hab hbc ih =>
      have hs := hstep b c hbc (parRun_mem body (· ∈ iters) st b hab hm)
      exact ⟨hs.1.trans ih.1, fun j hj hex => hs.2 j hj (ih.2 j hj hex)⟩
  cases h with
  | done chunks hc st hr hend order hord =>
    obtain ⟨hsum, hbad⟩ := hrun _ _ hr (hmem0 chunks hc)
    have hnb : ∀ j ∈ iters, ¬ bad j := by
      intro j hj hbj
      obtain ⟨c, hcc, hjc⟩ := List.mem_flatten.mp (hc.symm.subset hj)
      obtain ⟨t, ht, hjt⟩ := hbad j hbj ⟨(c, 0), List.mem_map.mpr ⟨c, hcc, rfl⟩, hjc⟩
      rw [hend t ht] at hjt
      cases hjt
    rw [hseq iters (fun _ h => h) hnb, zero_add]
    congr 1
    rw [chunk_sum] at hsum
    rw [foldl_add_zero, hord.sum_eq, ← (hc.map g).sum_eq, ← hsum]
    congr 1
    refine List.map_congr_left fun t ht => ?_
    rw [hend t ht]; simp
  | raise chunks hc st hr t ht j todo hj e he =>
    have hjm : j ∈ iters := parRun_mem body (· ∈ iters) _ _ hr (hmem0 chunks hc) t ht j (by rw [hj]; simp)
    have hbj : bad j := by
      by_contra hnb
      rw [hb.ok j hjm hnb] at he
      cases he
    rw [hb.err j hjm hbj] at he
    injection he with he
    rw [hseqe iters (fun _ h => h) ⟨j, hjm, hbj⟩, he]

/-- C53: a parallel execution exists: the statement above is not vacuous for any loop (one thread running all iterations in order). -/
theorem parallelFor_exists (iters : List ℕ) (body : ℕ → σ → Except PyErr σ) : ∃ r, ParallelFor iters body r := by
  have key : ∀ (l : List ℕ) (s : σ), (∃ s', Relation.ReflTransGen (ParStep body) [(l, s)] [([], s')]) ∨
      ∃ j todo s' e, Relation.ReflTransGen (ParStep body) [(l, s)] [(j :: todo, s')] ∧ body j s' = .error e := by
    intro l
    induction l with
    | nil => intro s; exact Or.inl ⟨s, .refl⟩
    | cons j l ih =>
      intro s
      cases hj : body j s with
      | error e => exact Or.inr ⟨j, l, s, e, .refl, hj⟩
      | ok s1 =>
        have hstep : ParStep body [(j :: l, s)] [(l, s1)] := by
          have := ParStep.run (body := body) [] [] j l s s1 hj
          simpa using this
        rcases ih s1 with ⟨s', h⟩ | ⟨i, todo, s', e, h, he⟩
        · exact Or.inl ⟨s', .head hstep h⟩
        · exact Or.inr ⟨i, todo, s', e, .head hstep h, he⟩
  rcases key iters 0 with ⟨s', h⟩ | ⟨j, todo, s', e, h, he⟩
  · exact ⟨_, .done [iters] (by simp) [([], s')] h (by simp) [s'] (by simp)⟩
  · exact ⟨_, .raise [iters] (by simp) [(j :: todo, s')] h (j :: todo, s') (by simp) j todo rfl e he⟩

theorem additive_of_pure (iters : List ℕ) (body : ℕ → σ → σ) (g : ℕ → σ) (h : ∀ j s, body j s = s + g j) :
    Additive iters (fun j s => .ok (body j s)) g (fun _ => False) .valueError :=
  ⟨fun j _ _ s => by rw [h], fun j _ hf => hf.elim⟩

theorem foldlM_ok {α β : Type} (l : List α) (b : α → β → β) (z : β) :
    l.foldlM (fun s j => (.ok (b j s) : Except PyErr β)) z = .ok (l.foldl (fun s j => b j s) z) := by
  induction l generalizing z with
  | nil => rfl
  | cons a l ih => rw [List.foldlM_cons]; exact ih _

end generic

/-! ### the loops of the library -/

variable {K : Type} [Field K]

/-- C53: every parallel execution of `_calc_hafnian` returns the same number as the sequential one. -/
theorem calcHafnian_schedule (pt : PowerTrace K) (A : ℕ → ℕ → K) (edgeReps : List ℕ) (glynn : Bool) (H : Except PyErr K)
    (h : ParallelFor (List.range (sieveSteps edgeReps glynn)) (fun j s => .ok (hafnianStep pt A edgeReps glynn j s)) H) :
    H.map (hafnianScale edgeReps glynn) = .ok (calcHafnian pt A edgeReps glynn) := by
  rw [parallelFor_eq_sequential _ _ _ _ _ (additive_of_pure _ (hafnianStep pt A edgeReps glynn) (fun j => hafnianStep pt A edgeReps glynn j 0)
    (fun j s => by simp only [hafnianStep, zero_add])) H h, foldlM_ok]
  rfl

/-- C53: every parallel execution of `_calc_loop_hafnian` returns the same number as the sequential one. -/
theorem calcLoopHafnian_schedule (pt : PowerTrace K) (A : ℕ → ℕ → K) (D : ℕ → K) (edgeReps : List ℕ) (odd : Option (K × (ℕ → K))) (glynn : Bool)
    (H : Except PyErr K)
    (h : ParallelFor (List.range (sieveSteps edgeReps (glynn && odd.isNone))) (fun j s => .ok (loopHafnianStep pt A D edgeReps odd glynn j s)) H) :
    H.map (loopHafnianScale edgeReps odd glynn) = .ok (calcLoopHafnian pt A D edgeReps odd glynn) := by
  rw [parallelFor_eq_sequential _ _ _ _ _ (additive_of_pure _ (loopHafnianStep pt A D edgeReps odd glynn)
    (fun j => loopHafnianStep pt A D edgeReps odd glynn j 0)
    (fun j s => by
      cases odd with
      | none => simp only [loopHafnianStep, zero_add]
      | some o => simp only [loopHafnianStep, zero_add])) H h, foldlM_ok]
  rfl

/-- C53: `_calc_loop_hafnian_batch_even`. -/
theorem calcBatchEven_schedule (pt : PowerTrace K) (A : ℕ → ℕ → K) (D : ℕ → K) (fixedEdgeReps : List ℕ) (batchMax oddCutoff : ℕ) (glynn : Bool)
    (H : Except PyErr (ℕ → K))
    (h : ParallelFor (List.range (((batchMax :: fixedEdgeReps).map (· + 1)).prod))
      (fun j s => .ok fun i => s i + batchEvenStep pt A D fixedEdgeReps batchMax oddCutoff glynn j i) H) :
    H.map (fun H => if glynn then fun i => H i * (1 / 2) ^ ((2 * fixedEdgeReps.sum + i) / 2) else H) =
      .ok (calcBatchEven pt A D fixedEdgeReps batchMax oddCutoff glynn) := by
  rw [parallelFor_eq_sequential _ _ _ _ _ (additive_of_pure _ (fun j s i => s i + batchEvenStep pt A D fixedEdgeReps batchMax oddCutoff glynn j i)
    (fun j => batchEvenStep pt A D fixedEdgeReps batchMax oddCutoff glynn j) (fun j s => rfl)) H h,
    foldlM_ok (b := fun j s i => s i + batchEvenStep pt A D fixedEdgeReps batchMax oddCutoff glynn j i)]
  rfl

/-- C53: `_calc_loop_hafnian_batch_odd`, where `H_batch[0] += …` acts on the private copy of the reduction array. -/
theorem calcBatchOdd_schedule (pt : PowerTrace K) (A : ℕ → ℕ → K) (D : ℕ → K) (fixedEdgeReps : List ℕ) (batchMax evenCutoff : ℕ) (glynn : Bool)
    (H : Except PyErr (ℕ → K))
    (h : ParallelFor (List.range (((batchMax :: 1 :: fixedEdgeReps).map (· + 1)).prod))
      (fun j s => .ok (batchOddBody pt A D fixedEdgeReps batchMax evenCutoff glynn j s)) H) :
    H.map (fun H => if glynn then fun i => H i * (1 / 2) ^ ((2 * fixedEdgeReps.sum + 1 + i) / 2) else H) =
      .ok (calcBatchOdd pt A D fixedEdgeReps batchMax evenCutoff glynn) := by
  rw [parallelFor_eq_sequential _ _ _ _ _ (additive_of_pure _ (batchOddBody pt A D fixedEdgeReps batchMax evenCutoff glynn)
    (fun j => batchOddBody pt A D fixedEdgeReps batchMax evenCutoff glynn j 0) (fun j s => by
      funext i
      simp only [batchOddBody, Pi.add_apply, Pi.zero_apply, zero_add]
      by_cases hi : i = 0
      · subst hi; simp only [Function.update_self]; ring
      · simp only [Function.update_of_ne hi, Pi.zero_apply]; ring)) H h,
    foldlM_ok]
  rfl

/-- C53: `_calc_loop_hafnian_batch_gamma_even` and `_odd`. -/
theorem calcGammaEven_schedule (pt : PowerTrace K) (A : ℕ → ℕ → K) (nD : ℕ) (D : ℕ → ℕ → K) (fixedEdgeReps : List ℕ) (batchMax oddCutoff : ℕ) (glynn : Bool)
    (H : Except PyErr (ℕ → ℕ → K))
    (h : ParallelFor (List.range (((batchMax :: fixedEdgeReps).map (· + 1)).prod))
      (fun j s => .ok fun k i => s k i + gammaEvenStep pt A D fixedEdgeReps batchMax oddCutoff glynn j nD k i) H) :
    H.map (fun H => if glynn then fun k i => H k i * (1 / 2) ^ ((2 * fixedEdgeReps.sum + i) / 2) else H) =
      .ok (calcGammaEven pt A nD D fixedEdgeReps batchMax oddCutoff glynn) := by
  rw [parallelFor_eq_sequential _ _ _ _ _ (additive_of_pure _ (fun j s k i => s k i + gammaEvenStep pt A D fixedEdgeReps batchMax oddCutoff glynn j nD k i)
    (fun j => gammaEvenStep pt A D fixedEdgeReps batchMax oddCutoff glynn j nD) (fun j s => rfl)) H h,
    foldlM_ok (b := fun j s k i => s k i + gammaEvenStep pt A D fixedEdgeReps batchMax oddCutoff glynn j nD k i)]
  rfl

theorem calcGammaOdd_schedule (pt : PowerTrace K) (A : ℕ → ℕ → K) (nD : ℕ) (D : ℕ → ℕ → K) (fixedEdgeReps : List ℕ) (batchMax evenCutoff : ℕ) (glynn : Bool)
    (H : Except PyErr (ℕ → ℕ → K))
    (h : ParallelFor (List.range (((batchMax :: 1 :: fixedEdgeReps).map (· + 1)).prod))
      (fun j s => .ok fun k i => s k i + gammaOddStep pt A D fixedEdgeReps batchMax evenCutoff glynn j nD k i) H) :
    H.map (fun H => if glynn then fun k i => H k i * (1 / 2) ^ ((2 * fixedEdgeReps.sum + 1 + i) / 2) else H) =
      .ok (calcGammaOdd pt A nD D fixedEdgeReps batchMax evenCutoff glynn) := by
  rw [parallelFor_eq_sequential _ _ _ _ _ (additive_of_pure _ (fun j s k i => s k i + gammaOddStep pt A D fixedEdgeReps batchMax evenCutoff glynn j nD k i)
    (fun j => gammaOddStep pt A D fixedEdgeReps batchMax evenCutoff glynn j nD) (fun j s => rfl)) H h,
    foldlM_ok (b := fun j s k i => s k i + gammaOddStep pt A D fixedEdgeReps batchMax evenCutoff glynn j nD k i)]
  rfl

/-- a body that runs a computation and adds to the accumulator -/
theorem additive_of_bind {σ α : Type} [AddCommMonoid σ] (iters : List ℕ) (body : ℕ → σ → Except PyErr σ) (c : ℕ → Except PyErr α) (v : ℕ → α → σ) (e0 : PyErr)
    (hb : ∀ j s, body j s = (c j).bind fun a => .ok (s + v j a)) (he : ∀ j e, c j = .error e → e = e0) :
    ∃ g, Additive iters body g (fun j => ∃ e, c j = .error e) e0 := by
  refine ⟨fun j => match c j with | .ok a => v j a | .error _ => 0, fun j _ hn s => ?_, fun j _ hbad s => ?_⟩
  · rw [hb]
    cases hc : c j with
    | error e => exact absurd ⟨e, hc⟩ hn
    | ok a => rfl
  · obtain ⟨e, hc⟩ := hbad
    rw [hb, hc, ← he j e hc]; rfl

/-- C53: every parallel execution of `brs`. -/
theorem brs_schedule {K : Type} [RCLike K] (m n : ℕ) (A E : ℕ → ℕ → K) (r : Except PyErr K) (h : ParallelFor (List.range (2 ^ m)) (brsStep m n A E) r) :
    r = brs m n A E := by
  obtain ⟨g, hg⟩ := additive_of_bind (List.range (2 ^ m)) (brsStep m n A E) (fun j => permBbfg n (fun a b => gramRows A (keptRows m j) a b + E a b))
    (fun j p => (-1) ^ ((m - (keptRows m j).length) % 2) * p) .valueError (fun j s => rfl) (fun j e he => by
      rw [permBbfg_eq] at he; cases he)
  exact parallelFor_eq_sequential _ _ _ _ _ hg r h

/-- C53: every parallel execution of `ubrs`. -/
theorem ubrs_schedule {K : Type} [RCLike K] (m n : ℕ) (A : ℕ → ℕ → K) (r : Except PyErr K)
    (h : ParallelFor ((List.range (2 ^ m - 1)).map (· + 1)) (ubrsStep m n A) r) : r = ubrs m n A := by
  obtain ⟨g, hg⟩ := additive_of_bind ((List.range (2 ^ m - 1)).map (· + 1)) (ubrsStep m n A) (fun j => permBbfg n (gramRows A (keptRows m j)))
    (fun j p => (-1) ^ ((m - (keptRows m j).length) % 2) * p) .valueError (fun j s => rfl) (fun j e he => by
      rw [permBbfg_eq] at he; cases he)
  exact parallelFor_eq_sequential _ _ _ _ _ hg r h

/-- C53: every parallel execution of `numba_tor`. -/
theorem numbaTor_schedule (dim : ℕ) (O : ℕ → ℕ → ℂ) (r : Except PyErr ℂ)
    (h : ParallelFor (List.range (2 ^ (dim / 2))) (fun j s => .ok (torStep (dim / 2) O j s)) r) : r = .ok (numbaTor dim O) := by
  rw [parallelFor_eq_sequential _ _ _ _ _ (additive_of_pure _ (torStep (dim / 2) O) (fun j => torStep (dim / 2) O j 0)
    (fun j s => by simp only [torStep, zero_add])) r h, foldlM_ok]
  rfl

/-- C53: every parallel execution of `numba_ltor`, also when a matrix is singular. -/
theorem numbaLtor_schedule (dim : ℕ) (O : ℕ → ℕ → ℂ) (gamma : ℕ → ℂ) (r : Except PyErr ℂ)
    (h : ParallelFor (List.range (2 ^ (dim / 2))) (ltorStep (dim / 2) O gamma) r) : r = numbaLtor dim O gamma := by
  obtain ⟨g, hg⟩ := additive_of_bind (List.range (2 ^ (dim / 2))) (ltorStep (dim / 2) O gamma)
    (fun j => npInv (2 * (keptRows (dim / 2) j).length) fun a b => eye a b - O (keptIdx (dim / 2) (keptRows (dim / 2) j) a) (keptIdx (dim / 2) (keptRows (dim / 2) j) b))
    _ .linAlgError (fun j s => rfl) (fun j e he => by
      unfold npInv at he
      split_ifs at he
      injection he with he; exact he.symm)
  exact parallelFor_eq_sequential _ _ _ _ _ hg r h

/-- non-vacuous: two threads, interleaved, with the iterations `2, 0` and `1` -/
example : ParallelFor (List.range 3) (fun j (s : ℤ) => .ok (s + (j : ℤ) * 10)) (.ok 30) := by
  have s1 : ParStep (fun j (s : ℤ) => .ok (s + (j : ℤ) * 10)) [([2, 0], 0), ([1], 0)] [([0], 20), ([1], 0)] :=
    .run [] [([1], 0)] 2 [0] 0 20 (by norm_num)
  have s2 : ParStep (fun j (s : ℤ) => .ok (s + (j : ℤ) * 10)) [([0], 20), ([1], 0)] [([0], 20), ([], 10)] :=
    .run [([0], 20)] [] 1 [] 0 10 (by norm_num)
  have s3 : ParStep (fun j (s : ℤ) => .ok (s + (j : ℤ) * 10)) [([0], 20), ([], 10)] [([], 20), ([], 10)] :=
    .run [] [([], 10)] 0 [] 20 20 (by norm_num)
  have := ParallelFor.done (iters := List.range 3) [[2, 0], [1]] (by decide) [([], 20), ([], 10)] (.head s1 (.head s2 (.head s3 .refl))) (by simp) [10, 20] (by decide)
  simpa using this

/-- The reduction matters: if the threads incremented one shared variable by separate reads and writes, an update could be lost. -/
theorem shared_update_lost : Relation.ReflTransGen SharedStep ([([1], none), ([1], none)], 0) ([([], none), ([], none)], 1) :=
  .head (.read [] [([1], none)] 1 [] 0) (.head (.read [([1], some 0)] [] 1 [] 0)
    (.head (.write [] [([1], some 0)] 1 0 [] 0) (.head (.write [([], none)] [] 1 0 [] 1) .refl)))

end Verif.Props
