/-
C39: the samplers, for every sequence of outcomes of the random generator.
-/
import Verif.Props.SamplesBasic
import Mathlib.Data.List.ReduceOption

set_option linter.unusedSectionVars false
set_option linter.unusedSimpArgs false

namespace Verif.Props
open Verif.Model Verif.Model.Symp Verif.Model.Means Verif.Model.Smp Verif.Model.Checks

/-- Whenever the computation returns, its result satisfies `Q`. -/
def Post {α : Type} (m : Rand α) (Q : α → Prop) : Prop := ∀ k a k', m k = .ok (a, k') → Q a

section post
variable {α β : Type}

theorem Post.bind {m : Rand α} {f : α → Rand β} {Q : α → Prop} {R : β → Prop} (hm : Post m Q) (hf : ∀ a, Q a → Post (f a) R) :
    Post (m >>= f) R := by
  intro k b k' h
  change (m k).bind (fun x => f x.1 x.2) = .ok (b, k') at h
  cases e : m k with
  | error err => rw [e] at h; cases h
  | ok x =>
    rw [e] at h
    exact hf x.1 (hm k x.1 x.2 e) x.2 b k' h

theorem Post.pure {a : α} {Q : α → Prop} (h : Q a) : Post (pure a) Q := by
  intro k b k' e
  change Except.ok (a, k) = .ok (b, k') at e
  simp only [Except.ok.injEq, Prod.mk.injEq] at e
  rw [← e.1]; exact h

theorem Post.raise {e : PyErr} {Q : α → Prop} : Post (raise e) Q := by
  intro k b k' h; cases h

theorem Post.lift {x : Except PyErr α} {Q : α → Prop} (h : ∀ a, x = .ok a → Q a) : Post (Smp.lift x) Q := by
  intro k b k' e
  unfold Smp.lift at e
  cases x with
  | error err => cases e
  | ok a =>
    change Except.ok (a, k) = .ok (b, k') at e
    simp only [Except.ok.injEq, Prod.mk.injEq] at e
    rw [← e.1]; exact h a rfl

theorem Post.trivial {m : Rand α} : Post m fun _ => True := fun _ _ _ _ => True.intro

theorem Post.mono {m : Rand α} {Q R : α → Prop} (h : Post m Q) (hq : ∀ a, Q a → R a) : Post m R := fun k a k' e => hq a (h k a k' e)

theorem Post.foldlM {γ : Type} (f : β → γ → Rand β) (I : β → Prop) (hf : ∀ b c, I b → Post (f b c) I) (l : List γ) (b : β) (hb : I b) :
    Post (l.foldlM f b) I := by
  induction l generalizing b with
  | nil => exact Post.pure hb
  | cons x xs ih => rw [List.foldlM_cons]; exact (hf b x hb).bind fun a ha => ih a ha

/-- an invariant that depends on the round -/
theorem Post.foldlRange (f : β → ℕ → Rand β) (I : ℕ → β → Prop) (n : ℕ) (hf : ∀ i b, i < n → I i b → Post (f b i) (I (i + 1))) (b : β) (hb : I 0 b) :
    Post ((List.range n).foldlM f b) (I n) := by
  induction n with
  | zero => exact Post.pure hb
  | succ n ih =>
    rw [List.range_succ, List.foldlM_append]
    refine (ih fun i b hi => hf i b (by omega)).bind fun a ha => ?_
    simp only [List.foldlM_cons, List.foldlM_nil]
    exact (hf n a (by omega) ha).bind fun c hc => Post.pure hc

theorem Post.mapM {γ : Type} (f : γ → Rand β) (Q : β → Prop) (hf : ∀ c, Post (f c) Q) (l : List γ) :
    Post (l.mapM f) fun r => r.length = l.length ∧ ∀ x ∈ r, Q x := by
  induction l with
  | nil => rw [List.mapM_nil]; exact Post.pure ⟨rfl, by simp⟩
  | cons c cs ih =>
    rw [List.mapM_cons]
    refine (hf c).bind fun a ha => ih.bind fun r hr => Post.pure ⟨by simp [hr.1], ?_⟩
    intro x hx
    rcases List.mem_cons.mp hx with rfl | hx
    · exact ha
    · exact hr.2 x hx

end post

theorem choice_post (lib : Lib) (hl : GoodRng lib) (size : ℕ) (p : List ℝ) : Post (choice lib size p) fun i => i < size ∧ 0 < p.getD i 0 :=
  fun k i k' h => ⟨(choice_spec lib hl size p k i k' h).1, (choice_spec lib hl size p k i k' h).2.1⟩

theorem chooseNormalised_post (lib : Lib) (hl : GoodRng lib) (cutoff : ℕ) (w : List ℝ) (hw : ∀ x ∈ w, 0 ≤ x) :
    Post (chooseNormalised lib cutoff w) fun i => i ≤ cutoff ∧ 0 < w.getD i 0 := by
  unfold chooseNormalised
  split_ifs with h
  · exact Post.raise
  · refine (choice_post lib hl _ _).mono fun i hi => ⟨by omega, ?_⟩
    have h0 : 0 ≤ w.sum := List.sum_nonneg hw
    have hs : 0 < w.sum := lt_of_le_of_ne h0 (Ne.symm h)
    have := hi.2
    by_cases hl : i < w.length
    · rw [List.getD_eq_getElem _ _ (by simpa using hl), List.getElem_map] at this
      rw [List.getD_eq_getElem _ _ hl]
      exact (div_pos_iff_of_pos_right hs).mp this
    · rw [List.getD_eq_default _ _ (by simpa using hl)] at this
      exact absurd this (lt_irrefl _)

theorem weights_nonneg (cutoff : ℕ) (l : List ℂ) : ∀ x ∈ weights cutoff l, 0 ≤ x := by
  intro x hx
  obtain ⟨k, _, rfl⟩ := List.mem_map.mp hx
  exact div_nonneg (Complex.normSq_nonneg _) (by positivity)

theorem hafnianStep_post (lib : Lib) (hl : GoodRng lib) (B : Verif.Spec.CArr) (het : ℕ → ℂ) (cutoff : ℕ) (st : (ℕ → ℂ) × (ℕ → ℕ)) (mode : ℕ)
    (h : ∀ i, st.2 i ≤ cutoff) : Post (Smp.hafnianStep lib B het cutoff st mode) fun st' => ∀ i, st'.2 i ≤ cutoff := by
  unfold Smp.hafnianStep
  refine Post.trivial.bind fun lhafs _ => (chooseNormalised_post lib hl _ _ (weights_nonneg _ _)).bind fun o ho => Post.pure ?_
  intro i
  by_cases hi : i = mode
  · subst hi; simpa using ho.1
  · simp only [Function.update_of_ne hi]; exact h i

/-- C39: what a single draw of `generate_hafnian_sample` returns: -1, or a pattern with one entry for each mode, at most the cutoff, not equal to the cutoff
in the last mode, with at most `max_photons` photons. -/
theorem generateHafnianSample_post (lib : Lib) (hl : GoodRng lib) (s : GState ℝ) (M : ℕ) (hs : s.len = 2 * M) (hbar : ℝ) (cutoff maxPhotons : ℕ) :
    Post (generateHafnianSample lib s hbar cutoff maxPhotons) fun r => ∀ n, r = some n →
      n.length = M ∧ (∀ x ∈ n, x ≤ cutoff) ∧ n.getLastD 0 ≠ cutoff ∧ n.sum ≤ maxPhotons := by
  have hM : s.len / 2 = M := by omega
  unfold generateHafnianSample
  dsimp only
  rw [hM]
  split_ifs with h0
  · exact Post.raise
  obtain ⟨order, -, ho, -, hperm, -⟩ := photonMeansOrder_correct s M hs
  obtain ⟨inv, hi1, hi2, -⟩ := invertPermutation_correct (fun _ => 0) M order hperm
  refine (Post.lift (Q := fun x => order = x) fun a ha => by rw [ho] at ha; cases ha; rfl).bind ?_
  rintro _ rfl
  refine (Post.lift (Q := fun x => inv = x) fun a ha => by rw [hi1] at ha; cases ha; rfl).bind ?_
  rintro _ rfl
  refine Post.trivial.bind ?_
  rintro ⟨B, het, gamma⟩ -
  refine (Post.foldlM _ (fun st : (ℕ → ℂ) × (ℕ → ℕ) => ∀ i, st.2 i ≤ cutoff)
    (fun st mode h => hafnianStep_post lib hl B het cutoff st mode h) _ _ (fun i => Nat.zero_le _)).bind fun st hst => ?_
  split_ifs with h1 h2
  · exact Post.pure fun n hn => by cases hn
  · exact Post.pure fun n hn => by cases hn
  · refine Post.pure fun n hn => ?_
    simp only [Option.some.injEq] at hn
    subst hn
    refine ⟨by rw [List.length_map, hi2.length_eq, List.length_range], ?_, h1, by omega⟩
    intro x hx
    obtain ⟨j, -, rfl⟩ := List.mem_map.mp hx
    exact hst j

/-- The outcomes of successive calls of a sampler: starting after `k` calls of the generator, the list of results, and the number of calls after. -/
inductive Runs {α : Type} (gen : Rand α) : ℕ → List α → ℕ → Prop
  | nil (k : ℕ) : Runs gen k [] k
  | cons {k k' k'' : ℕ} {a : α} {l : List α} : gen k = .ok (a, k') → Runs gen k' l k'' → Runs gen k (a :: l) k''

theorem collect_spec (gen : Rand (Option (List ℕ))) (fuel j : ℕ) (acc : List (List ℕ)) (k : ℕ) (rows : List (List ℕ)) (k' : ℕ)
    (h : collect gen fuel j acc k = .ok (rows, k')) :
    ∃ outs, Runs gen k outs k' ∧ rows = acc ++ outs.reduceOption ∧ outs.reduceOption.length = j ∧ (outs ≠ [] → outs.getLast? ≠ some none) := by
  induction fuel generalizing j acc k with
  | zero =>
    rw [collect] at h
    split_ifs at h with hj
    · change Except.ok (acc, k) = .ok (rows, k') at h
      simp only [Except.ok.injEq, Prod.mk.injEq] at h
      obtain ⟨rfl, rfl⟩ := h
      exact ⟨[], Runs.nil _, by simp, by simp [hj], fun h => absurd rfl h⟩
    · cases h
  | succ f ih =>
    rw [collect] at h
    split_ifs at h with hj
    · change Except.ok (acc, k) = .ok (rows, k') at h
      simp only [Except.ok.injEq, Prod.mk.injEq] at h
      obtain ⟨rfl, rfl⟩ := h
      exact ⟨[], Runs.nil _, by simp, by simp [hj], fun h => absurd rfl h⟩
    · change (gen k).bind (fun x => _) = _ at h
      cases e : gen k with
      | error err => rw [e] at h; cases h
      | ok x =>
        obtain ⟨r, k1⟩ := x
        rw [e] at h
        cases r with
        | none =>
          change collect gen f j acc k1 = .ok (rows, k') at h
          obtain ⟨outs, h1, h2, h3, h4⟩ := ih j acc k1 h
          refine ⟨none :: outs, Runs.cons e h1, by simpa using h2, by simpa using h3, fun _ => ?_⟩
          cases outs with
          | nil => simp at h3; omega
          | cons o os => rw [List.getLast?_cons_cons]; exact h4 (by simp)
        | some n =>
          change collect gen f (j - 1) (acc ++ [n]) k1 = .ok (rows, k') at h
          obtain ⟨outs, h1, h2, h3, h4⟩ := ih (j - 1) (acc ++ [n]) k1 h
          refine ⟨some n :: outs, Runs.cons e h1, by simp [h2], by simp [h3]; omega, fun _ => ?_⟩
          cases outs with
          | nil => simp
          | cons o os => rw [List.getLast?_cons_cons]; exact h4 (by simp)

theorem collect_runs (gen : Rand (Option (List ℕ))) (outs : List (Option (List ℕ))) (fuel j : ℕ) (acc : List (List ℕ)) (k k' : ℕ)
    (hr : Runs gen k outs k') (hf : outs.length ≤ fuel) (hj : outs.reduceOption.length = j) (hlast : outs ≠ [] → outs.getLast? ≠ some none) :
    collect gen fuel j acc k = .ok (acc ++ outs.reduceOption, k') := by
  induction outs generalizing fuel j acc k with
  | nil =>
    cases hr
    simp at hj
    subst hj
    cases fuel <;> simp [collect] <;> rfl
  | cons o os ih =>
    cases hr with
    | cons e h1 =>
      rename_i k1
      obtain ⟨f, rfl⟩ : ∃ f, fuel = f + 1 := ⟨fuel - 1, by simp at hf; omega⟩
      have hj0 : j ≠ 0 := by
        intro h
        rw [← hj] at h
        have h2 := List.length_eq_zero_iff.mp h
        have hl := hlast (by simp)
        have hx := List.getLast?_eq_some_getLast (l := o :: os) (by simp)
        rw [hx] at hl
        cases hg : (o :: os).getLast (by simp) with
        | none => rw [hg] at hl; exact hl rfl
        | some v =>
          have hm : some v ∈ o :: os := by rw [← hg]; exact List.getLast_mem _
          have := List.reduceOption_mem_iff.mpr hm
          rw [h2] at this
          simp at this
      rw [collect, if_neg hj0]
      change (gen k).bind (fun x => _) = _
      rw [e]
      cases o with
      | none =>
        change collect gen f j acc k1 = _
        rw [ih f j acc k1 h1 (by simp at hf; omega) (by simpa using hj) (fun h => ?_)]
        · simp
        · have := hlast (by simp)
          cases os with
          | nil => exact absurd rfl h
          | cons a as => rwa [List.getLast?_cons_cons] at this
      | some n =>
        change collect gen f (j - 1) (acc ++ [n]) k1 = _
        rw [ih f (j - 1) (acc ++ [n]) k1 h1 (by simp at hf; omega) (by simp at hj; omega) (fun h => ?_)]
        · simp
        · have := hlast (by simp)
          cases os with
          | nil => exact absurd rfl h
          | cons a as => rwa [List.getLast?_cons_cons] at this

/-- C39: the loop of `_hafnian_sample` and `_torontonian_sample` returns exactly the accepted draws of the generator of single samples, in the order in which they
were drawn, and stops at the draw that makes them `samples` many: it returns after some number of rounds if and only if the successive draws contain
`samples` accepted ones. -/
theorem collect_iff (gen : Rand (Option (List ℕ))) (samples k k' : ℕ) (rows : List (List ℕ)) :
    (∃ fuel, collect gen fuel samples [] k = .ok (rows, k')) ↔
      ∃ outs, Runs gen k outs k' ∧ rows = outs.reduceOption ∧ rows.length = samples ∧ (outs ≠ [] → outs.getLast? ≠ some none) := by
  constructor
  · rintro ⟨fuel, h⟩
    obtain ⟨outs, h1, h2, h3, h4⟩ := collect_spec gen fuel samples [] k rows k' h
    rw [List.nil_append] at h2
    exact ⟨outs, h1, h2, by rw [h2, h3], h4⟩
  · rintro ⟨outs, h1, h2, h3, h4⟩
    refine ⟨outs.length, ?_⟩
    rw [collect_runs gen outs outs.length samples [] k k' h1 le_rfl (by rw [← h2, h3]) h4, h2, List.nil_append]

theorem runs_post {α : Type} {gen : Rand α} {Q : α → Prop} (h : Post gen Q) {k k' : ℕ} {outs : List α} (hr : Runs gen k outs k') :
    ∀ x ∈ outs, Q x := by
  induction hr with
  | nil => simp
  | cons e _ ih =>
    intro x hx
    rcases List.mem_cons.mp hx with rfl | hx
    · exact h _ _ _ e
    · exact ih x hx

theorem collect_post {gen : Rand (Option (List ℕ))} {Q : List ℕ → Prop} (h : Post gen fun r => ∀ n, r = some n → Q n) (fuel samples : ℕ) :
    Post (collect gen fuel samples []) fun rows => rows.length = samples ∧ ∀ n ∈ rows, Q n := by
  intro k rows k' e
  obtain ⟨outs, h1, h2, h3, -⟩ := collect_spec gen fuel samples [] k rows k' e
  rw [List.nil_append] at h2
  refine ⟨by rw [h2, h3], fun n hn => ?_⟩
  rw [h2] at hn
  exact runs_post h h1 _ (List.reduceOption_mem_iff.mp hn) n rfl

theorem vstack_post (rows : List (List ℕ)) : Post (vstack rows) fun r => r = rows := by
  unfold vstack
  split_ifs
  · exact Post.raise
  · exact Post.pure rfl

/-- A row that `hafnian_sample_state` may return for `M` modes. -/
def HafnianRow (M cutoff maxPhotons : ℕ) (n : List ℕ) : Prop :=
  n.length = M ∧ (∀ x ∈ n, x ≤ cutoff) ∧ n.getLastD 0 ≠ cutoff ∧ n.sum ≤ maxPhotons

/-- A row that `torontonian_sample_state` may return for `M` modes. -/
def ClickRow (M maxClicks : ℕ) (n : List ℕ) : Prop := n.length = M ∧ (∀ x ∈ n, x = 0 ∨ x = 1) ∧ n.sum ≤ maxClicks

/-- the array argument without NaN entries -/
def covArray (M : ℕ) (V : Matrix (Fin (2 * M)) (Fin (2 * M)) ℝ) (junk : ℕ → ℕ → Option ℝ) : PyObj ℝ := PyObj.ofMatrix V junk

theorem covChecks_ok (M : ℕ) (V : Matrix (Fin (2 * M)) (Fin (2 * M)) ℝ) (junk : ℕ → ℕ → Option ℝ) :
    ∃ c, covChecks (covArray M V junk) = .ok (2 * M, c) ∧ toMatrix (2 * M) (2 * M) c = V := by
  refine ⟨fun i j => ((if h : i < 2 * M ∧ j < 2 * M then some (V ⟨i, h.1⟩ ⟨j, h.2⟩) else junk i j).getD 0), ?_, ?_⟩
  · unfold covChecks covArray PyObj.ofMatrix
    simp only
    rw [if_neg (by simp), if_neg]
    rintro ⟨i, hi, j, hj, h⟩
    rw [dif_pos ⟨hi, hj⟩] at h
    cases h
  · ext i j
    simp [toMatrix]

/-- C39: whenever `hafnian_sample_state` returns, it returns exactly `samples` rows, each with one entry for each mode, at most the cutoff (and not the cutoff in the
last mode), with at most `max_photons` photons; for every array, mean vector, and every sequence of random numbers. -/
theorem hafnianSampleState_correct (lib : Lib) (hl : GoodRng lib) (fuel M : ℕ) (V : Matrix (Fin (2 * M)) (Fin (2 * M)) ℝ) (junk : ℕ → ℕ → Option ℝ)
    (samples : ℕ) (mean : ℕ → ℝ) (hbar : ℝ) (cutoff maxPhotons : ℕ) :
    Post (hafnianSampleState lib fuel (covArray M V junk) samples mean hbar cutoff maxPhotons) fun rows =>
      rows.length = samples ∧ ∀ n ∈ rows, HafnianRow M cutoff maxPhotons n := by
  obtain ⟨c, hc, -⟩ := covChecks_ok M V junk
  unfold hafnianSampleState hafnianSample
  refine (Post.lift (Q := fun x => x = (2 * M, c)) fun a ha => by rw [hc] at ha; cases ha; rfl).bind ?_
  rintro _ rfl
  refine (collect_post (Q := HafnianRow M cutoff maxPhotons) (generateHafnianSample_post lib hl _ M rfl hbar cutoff maxPhotons) fuel samples).bind
    fun rows hrows => (vstack_post rows).mono ?_
  rintro _ rfl
  exact hrows

theorem tasks_post (task : Lib → Rand (List (List ℕ))) (libs : ℕ → Lib) (samples : ℕ) (Q : List ℕ → Prop)
    (h : ∀ i, Post (task (libs i)) fun rows => rows.length = 1 ∧ ∀ n ∈ rows, Q n) (rows : List (List ℕ)) (hr : tasks task libs samples = .ok rows) :
    rows.length = samples ∧ ∀ n ∈ rows, Q n := by
  unfold tasks at hr
  have key : ∀ (l : List ℕ) rs, (l.mapM fun i => (task (libs i) 0).map (·.1)) = .ok rs → rs.flatten.length = l.length ∧ ∀ n ∈ rs.flatten, Q n := by
    intro l
    induction l with
    | nil => intro rs h; rw [List.mapM_nil] at h; cases h; simp
    | cons i l ih =>
      intro rs hrs
      rw [List.mapM_cons] at hrs
      cases e : task (libs i) 0 with
      | error err => rw [e] at hrs; cases hrs
      | ok x =>
        rw [e] at hrs
        cases e2 : l.mapM fun i => (task (libs i) 0).map (·.1) with
        | error err => rw [e2] at hrs; cases hrs
        | ok rs' =>
          rw [e2] at hrs
          cases hrs
          obtain ⟨h1, h2⟩ := h i 0 x.1 x.2 e
          obtain ⟨h3, h4⟩ := ih rs' e2
          refine ⟨?_, ?_⟩
          · simp only [List.flatten_cons, List.length_append, List.length_cons, h1, h3]; omega
          · intro n hn
            simp only [List.flatten_cons, List.mem_append] at hn
            rcases hn with hn | hn
            · exact h2 n hn
            · exact h4 n hn
  cases e : (List.range samples).mapM fun i => (task (libs i) 0).map (·.1) with
  | error err => rw [e] at hr; cases hr
  | ok rs =>
    rw [e] at hr
    change (if rs.flatten = [] then _ else _) = _ at hr
    split_ifs at hr
    cases hr
    have := key _ rs e
    rwa [List.length_range] at this

/-- C39: the same with `parallel=True`, however the random numbers are distributed over the tasks. -/
theorem hafnianSampleStateParallel_correct (libs : ℕ → Lib) (hl : ∀ i, GoodRng (libs i)) (fuel : ℕ) (darwin : Bool) (M : ℕ)
    (V : Matrix (Fin (2 * M)) (Fin (2 * M)) ℝ) (junk : ℕ → ℕ → Option ℝ)
    (samples : ℕ) (mean : ℕ → ℝ) (hbar : ℝ) (cutoff maxPhotons : ℕ) (rows : List (List ℕ))
    (h : hafnianSampleStateParallel libs fuel darwin (covArray M V junk) samples mean hbar cutoff maxPhotons = .ok rows) :
    rows.length = samples ∧ ∀ n ∈ rows, HafnianRow M cutoff maxPhotons n := by
  unfold hafnianSampleStateParallel at h
  split_ifs at h
  exact tasks_post _ libs samples _ (fun i => hafnianSampleState_correct (libs i) (hl i) fuel M V junk 1 mean hbar cutoff maxPhotons) rows h

/-! #### Torontonian samples -/

theorem fanoutLoop_post (lib : Lib) (cutoff : ℕ) (gf : ℕ → ℕ → ℂ) (lhafs : List (List ℂ)) (ks : List ℕ) (gamma : ℕ → ℂ) :
    Post (fanoutLoop lib cutoff gf lhafs ks gamma) fun r => r.2.2 = 0 ∨ r.2.2 = 1 := by
  induction ks generalizing gamma with
  | nil => rw [fanoutLoop]; exact Post.pure (Or.inl rfl)
  | cons k ks ih =>
    rw [fanoutLoop]
    refine Post.trivial.bind fun o _ => ?_
    split_ifs
    · exact Post.pure (Or.inr rfl)
    · exact ih _

theorem torontonianStep_post (lib : Lib) (B : Verif.Spec.CArr) (hf : ℕ → ℕ → ℂ) (cutoff fanout maxPhotons : ℕ) (inv : List ℕ)
    (st : Option ((ℕ → ℂ) × (ℕ → ℕ) × (ℕ → ℕ))) (mode : ℕ) (h : ∀ t, st = some t → (∀ i, t.2.2 i = 0 ∨ t.2.2 i = 1)) :
    Post (torontonianStep lib B hf cutoff fanout maxPhotons inv st mode) fun st' =>
      ∀ t, st' = some t → (∀ i, t.2.2 i = 0 ∨ t.2.2 i = 1) ∧ (inv.map t.2.2).sum ≤ maxPhotons := by
  match st with
  | none => exact Post.pure fun t ht => by cases ht
  | some (gamma, det, clicks) =>
    have hc := h _ rfl
    unfold torontonianStep
    refine Post.trivial.bind fun lhafs _ => (fanoutLoop_post lib cutoff _ lhafs (List.range fanout) gamma).bind ?_
    rintro ⟨gamma', o, click⟩ hclick
    dsimp only at hclick ⊢
    split_ifs with h1 h2 h2
    · exact Post.pure fun t ht => by cases ht
    · refine Post.pure fun t ht => ?_
      cases ht
      refine ⟨fun i => ?_, Nat.not_lt.mp h2⟩
      by_cases hi : i = mode
      · subst hi; simp
      · simp only [Function.update_of_ne hi]; exact hc i
    · exact Post.pure fun t ht => by cases ht
    · refine Post.pure fun t ht => ?_
      cases ht
      exact ⟨hc, Nat.not_lt.mp h2⟩

/-- C39: what a single draw of `generate_torontonian_sample` returns: -1, or a pattern of zeros and ones with one entry for each mode and at most `max_photons`
clicks. -/
theorem generateTorontonianSample_post (lib : Lib) (s : GState ℝ) (M : ℕ) (hs : s.len = 2 * M) (hbar : ℝ) (maxPhotons fanout cutoff : ℕ) :
    Post (generateTorontonianSample lib s hbar maxPhotons fanout cutoff) fun r => ∀ n, r = some n → ClickRow M maxPhotons n := by
  have hM : s.len / 2 = M := by omega
  unfold generateTorontonianSample
  dsimp only
  rw [hM]
  split_ifs with h0
  · exact Post.raise
  obtain ⟨order, -, ho, -, hperm, -⟩ := photonMeansOrder_correct s M hs
  obtain ⟨inv, hi1, hi2, -⟩ := invertPermutation_correct (fun _ => 0) M order hperm
  refine (Post.lift (Q := fun x => order = x) fun a ha => by rw [ho] at ha; cases ha; rfl).bind ?_
  rintro _ rfl
  refine (Post.lift (Q := fun x => inv = x) fun a ha => by rw [hi1] at ha; cases ha; rfl).bind ?_
  rintro _ rfl
  refine Post.trivial.bind ?_
  rintro ⟨T, sqrtW⟩ -
  refine Post.trivial.bind fun chol _ => Post.trivial.bind fun A _ => Post.trivial.bind fun x _ => Post.trivial.bind fun y _ =>
    Post.trivial.bind fun hf _ => ?_
  refine (Post.foldlRange _ (fun m (st : Option ((ℕ → ℂ) × (ℕ → ℕ) × (ℕ → ℕ))) => ∀ t, st = some t →
    (∀ i, t.2.2 i = 0 ∨ t.2.2 i = 1) ∧ (0 < m → (inv.map t.2.2).sum ≤ maxPhotons)) M (fun i st _ hst => ?_) _ ?_).bind
    fun st hst => Post.pure fun n hn => ?_
  · exact (torontonianStep_post lib _ hf cutoff fanout maxPhotons inv st i fun t ht => (hst t ht).1).mono
      fun st' h t ht => ⟨(h t ht).1, fun _ => (h t ht).2⟩
  · intro t ht
    cases ht
    exact ⟨fun i => Or.inl rfl, fun h => absurd h (lt_irrefl 0)⟩
  · cases st with
    | none => cases hn
    | some t =>
      simp only [Option.map_some, Option.some.injEq] at hn
      subst hn
      obtain ⟨h1, h2⟩ := hst t rfl
      refine ⟨by rw [List.length_map, hi2.length_eq, List.length_range], ?_, h2 (by omega)⟩
      intro z hz
      obtain ⟨j, -, rfl⟩ := List.mem_map.mp hz
      exact h1 j

/-- C39: whenever `torontonian_sample_state` returns, it returns exactly `samples` rows of zeros and ones, one entry for each mode, with at most `max_photons` clicks;
for every sequence of random numbers. -/
theorem torontonianSampleState_correct (lib : Lib) (fuel M : ℕ) (V : Matrix (Fin (2 * M)) (Fin (2 * M)) ℝ) (junk : ℕ → ℕ → Option ℝ)
    (samples : ℕ) (mu : ℕ → ℝ) (hbar : ℝ) (maxPhotons fanout cutoff : ℕ) :
    Post (torontonianSampleState lib fuel (covArray M V junk) samples mu hbar maxPhotons fanout cutoff) fun rows =>
      rows.length = samples ∧ ∀ n ∈ rows, ClickRow M maxPhotons n := by
  obtain ⟨c, hc, -⟩ := covChecks_ok M V junk
  unfold torontonianSampleState torontonianSample
  refine (Post.lift (Q := fun x => x = (2 * M, c)) fun a ha => by rw [hc] at ha; cases ha; rfl).bind ?_
  rintro _ rfl
  refine (collect_post (generateTorontonianSample_post lib _ M rfl hbar maxPhotons fanout cutoff) fuel samples).bind
    fun rows hrows => (vstack_post rows).mono ?_
  rintro _ rfl
  exact hrows

/-- C39: the same with `parallel=True`. -/
theorem torontonianSampleStateParallel_correct (libs : ℕ → Lib) (fuel : ℕ) (darwin : Bool) (M : ℕ)
    (V : Matrix (Fin (2 * M)) (Fin (2 * M)) ℝ) (junk : ℕ → ℕ → Option ℝ)
    (samples : ℕ) (mu : ℕ → ℝ) (hbar : ℝ) (maxPhotons fanout cutoff : ℕ) (rows : List (List ℕ))
    (h : torontonianSampleStateParallel libs fuel darwin (covArray M V junk) samples mu hbar maxPhotons fanout cutoff = .ok rows) :
    rows.length = samples ∧ ∀ n ∈ rows, ClickRow M maxPhotons n := by
  unfold torontonianSampleStateParallel covArray PyObj.ofMatrix at h
  simp only at h
  split_ifs at h
  exact tasks_post _ libs samples _ (fun i => torontonianSampleState_correct (libs i) fuel M V junk 1 mu hbar maxPhotons fanout cutoff) rows h

/-- C39: the samplers refuse arguments that are not arrays, arrays that are not square, and arrays with NaN entries; and with `samples = 0` they raise too
(`np.vstack` of nothing). -/
theorem sampleState_errors (lib : Lib) (fuel samples : ℕ) (mean : ℕ → ℝ) (hbar : ℝ) (a b c k : ℕ) (cov : PyObj ℝ) (e : PyErr)
    (h : covChecks cov = .error e) :
    hafnianSampleState lib fuel cov samples mean hbar a b k = .error e ∧
    torontonianSampleState lib fuel cov samples mean hbar a b c k = .error e := by
  unfold hafnianSampleState hafnianSample torontonianSampleState torontonianSample
  constructor <;>
  · change (Smp.lift (covChecks cov) k).bind _ = _
    rw [h]; rfl

theorem covChecks_iff (cov : PyObj ℝ) :
    (covChecks cov = .error .typeError ↔ cov = .other) ∧
    (covChecks cov = .error .valueError ↔ ∃ r c e, cov = .arr r c e ∧ (r ≠ c ∨ ∃ i < r, ∃ j < c, e i j = none)) := by
  cases cov with
  | other => simp [covChecks]
  | arr r c e =>
    unfold covChecks
    by_cases h1 : r = c
    · by_cases h2 : ∃ i < r, ∃ j < c, e i j = none
      · simp only [h1, ne_eq, not_true_eq_false, if_false]
        rw [h1] at h2
        rw [if_pos h2]
        refine ⟨by simp, by simp only [true_iff]; exact ⟨_, _, _, rfl, Or.inr h2⟩⟩
      · simp only [h1, ne_eq, not_true_eq_false, if_false]
        rw [h1] at h2
        rw [if_neg h2]
        refine ⟨by simp, by simp; simpa using h2⟩
    · simp only [ne_eq, h1, not_false_eq_true, if_true]
      refine ⟨by simp, by simp only [true_iff]; exact ⟨_, _, _, rfl, Or.inl h1⟩⟩

/-- C39: no samples. -/
theorem sampleState_zero (lib : Lib) (fuel M : ℕ) (V : Matrix (Fin (2 * M)) (Fin (2 * M)) ℝ) (junk : ℕ → ℕ → Option ℝ) (mean : ℕ → ℝ) (hbar : ℝ)
    (a b c k : ℕ) :
    hafnianSampleState lib fuel (covArray M V junk) 0 mean hbar a b k = .error .valueError ∧
    torontonianSampleState lib fuel (covArray M V junk) 0 mean hbar a b c k = .error .valueError := by
  obtain ⟨cc, hc, -⟩ := covChecks_ok M V junk
  unfold hafnianSampleState hafnianSample torontonianSampleState torontonianSample
  constructor <;>
  · change (Smp.lift (covChecks _) k).bind _ = _
    rw [hc]
    cases fuel <;> rfl

/-! #### Classical states and rank-one graphs -/

/-- C39: `torontonian_sample_classical_state` and `hafnian_sample_classical_state` with the same random numbers: both raise the same exception, or the former
returns ones exactly where the latter has photons; the arrays have `samples` rows and one column for each mode. -/
theorem classicalSamples (lib : Lib) (n m : ℕ) (cov : Verif.Spec.RArr) (samples : ℕ) (mean : Option (ℕ × (ℕ → ℝ))) (hbar atol : ℝ) (k : ℕ) :
    (∃ e, hafnianSampleClassical lib n m cov samples mean hbar atol k = .error e ∧
      torontonianSampleClassical lib n m cov samples mean hbar atol k = .error e) ∨
    ∃ h t, hafnianSampleClassical lib n m cov samples mean hbar atol k = .ok (h, k + 2) ∧
      torontonianSampleClassical lib n m cov samples mean hbar atol k = .ok (t, k + 2) ∧
      h.length = samples ∧ t.length = samples ∧ (∀ r ∈ h, r.length = n / 2) ∧ (∀ r ∈ t, r.length = n / 2) ∧
      ∀ s < samples, ∀ j < n / 2, (t.getD s []).getD j 0 = if 0 < (h.getD s []).getD j 0 then 1 else 0 := by
  unfold torontonianSampleClassical
  change (∃ e, _ ∧ ((hafnianSampleClassical lib n m cov samples mean hbar atol k).bind fun x => _) = _) ∨
    ∃ h t, _ ∧ ((hafnianSampleClassical lib n m cov samples mean hbar atol k).bind fun x => _) = _ ∧ _
  unfold hafnianSampleClassical
  split_ifs with h1 h2
  · left; exact ⟨_, rfl, rfl⟩
  on_goal 2 => left; exact ⟨_, rfl, rfl⟩
  · right
    refine ⟨_, _, rfl, rfl, by simp, by simp, ?_, ?_, ?_⟩
    · intro r hr
      obtain ⟨s, -, rfl⟩ := List.mem_map.mp hr
      simp
    · intro r hr
      obtain ⟨r', hr', rfl⟩ := List.mem_map.mp hr
      obtain ⟨s, -, rfl⟩ := List.mem_map.mp hr'
      simp
    · intro s hs j hj
      simp [List.getD_eq_getElem?_getD, hs, hj]

/-- C39: the classical samplers raise exactly when the covariance matrix is not classical or the mean has the wrong length. -/
theorem classicalSamples_error (lib : Lib) (n m : ℕ) (cov : Verif.Spec.RArr) (samples : ℕ) (mean : Option (ℕ × (ℕ → ℝ))) (hbar atol : ℝ) (k : ℕ) :
    hafnianSampleClassical lib n m cov samples mean hbar atol k = .error .valueError ↔
      isClassicalCov lib.close n m cov hbar atol = false ∨ ∃ v, mean = some v ∧ v.1 ≠ n := by
  unfold hafnianSampleClassical
  split_ifs with h1 h2
  on_goal 3 =>
    simp only [Bool.not_eq_true] at h1
    exact ⟨fun _ => Or.inl h1, fun _ => rfl⟩
  · refine ⟨fun _ => Or.inr ?_, fun _ => rfl⟩
    cases mean with
    | none => simp at h2
    | some v => exact ⟨v, rfl, by simpa using h2⟩
  · constructor
    · intro h; cases h
    · rintro (h | ⟨v, rfl, h⟩)
      · exact absurd h (by simpa using h1)
      · exact absurd (by simpa using h) h2

/-- C39: a sample from a rank-one graph has one entry for each vertex and an even number of photons, twice the number that the negative binomial gave, and no photon
where the vector is zero. -/
theorem hafnianSampleRankOne_correct (lib : Lib) (hl : GoodRng lib) (len : ℕ) (G : ℕ → ℂ) (k k' : ℕ) (n : List ℕ)
    (h : hafnianSampleRankOne lib len G k = .ok (n, k')) :
    n.length = len ∧ n.sum = 2 * lib.negBinomial k ∧ ∀ i < len, G i = 0 → n.getD i 0 = 0 := by
  set ps := (List.range len).map fun i => ‖G i‖ ^ 2 with hps
  have hnn : ∀ x ∈ ps, 0 ≤ x := by
    intro x hx
    obtain ⟨i, -, rfl⟩ := List.mem_map.mp hx
    positivity
  have hstep : ∀ m, Post ((List.range m).foldlM (fun (sample : ℕ → ℕ) _ => do
      let det ← pick lib len ps
      pure (Function.update sample det (sample det + 1))) (fun _ => 0))
      fun s => ∑ i ∈ Finset.range len, s i = m ∧ ∀ i < len, G i = 0 → s i = 0 := by
    intro m
    refine Post.foldlRange _ (fun m (s : ℕ → ℕ) => ∑ i ∈ Finset.range len, s i = m ∧ ∀ i < len, G i = 0 → s i = 0) m ?_ _ (by simp)
    intro i s _ hs
    refine Post.bind (Q := fun d => d < len ∧ G d ≠ 0) ?_ ?_
    · unfold pick
      split_ifs with h0
      · exact Post.raise
      · refine (choice_post lib hl _ _).mono fun d hd => ⟨hd.1, fun hG => ?_⟩
        have := hd.2
        rw [List.getD_eq_getElem _ _ (by simpa [hps] using hd.1), List.getElem_map] at this
        simp [hps, hG] at this
    · rintro d ⟨hd, hG⟩
      refine Post.pure ⟨?_, ?_⟩
      · rw [Finset.sum_update_of_mem (Finset.mem_range.mpr hd)]
        have := Finset.sum_eq_add_sum_sdiff_singleton_of_mem (Finset.mem_range.mpr hd) s
        omega
      · intro j hj hGj
        rw [Function.update_of_ne (fun e => hG (by rw [← e]; exact hGj))]
        exact hs.2 j hj hGj
  unfold hafnianSampleRankOne at h
  have h' : (((List.range (2 * lib.negBinomial k)).foldlM (fun (sample : ℕ → ℕ) _ => do
      let det ← pick lib len ps
      pure (Function.update sample det (sample det + 1))) (fun _ => 0) : Rand (ℕ → ℕ)) (k + 1)).bind
        (fun x => Except.ok ((List.range len).map x.1, x.2)) = .ok (n, k') := h
  cases e : ((List.range (2 * lib.negBinomial k)).foldlM (fun (sample : ℕ → ℕ) _ => do
      let det ← pick lib len ps
      pure (Function.update sample det (sample det + 1))) (fun _ => 0) : Rand (ℕ → ℕ)) (k + 1) with
  | error err => rw [e] at h'; cases h'
  | ok x =>
    rw [e] at h'
    obtain ⟨h1, h2⟩ := hstep _ _ _ _ e
    change Except.ok ((List.range len).map x.1, x.2) = .ok (n, k') at h'
    simp only [Except.ok.injEq, Prod.mk.injEq] at h'
    obtain ⟨rfl, rfl⟩ := h'
    refine ⟨by simp, ?_, ?_⟩
    · rw [← List.sum_toFinset _ List.nodup_range, show (List.range len).toFinset = Finset.range len by ext; simp, h1]
    · intro i hi hG
      rw [List.getD_eq_getElem _ _ (by simpa using hi), List.getElem_map, List.getElem_range]
      exact h2 i hi hG

/-- C39: for a vector with a non-zero entry the sampler always returns a pattern; for the zero vector it fails as soon as there is a photon. -/
theorem hafnianSampleRankOne_runs (lib : Lib) (hl : GoodRng lib) (len : ℕ) (G : ℕ → ℂ) (k : ℕ) :
    ((∃ i < len, G i ≠ 0) → ∃ n k', hafnianSampleRankOne lib len G k = .ok (n, k')) ∧
      ((∀ i < len, G i = 0) → lib.negBinomial k ≠ 0 → hafnianSampleRankOne lib len G k = .error .valueError) := by
  have hrun : hafnianSampleRankOne lib len G k = (((List.range (2 * lib.negBinomial k)).foldlM (fun (sample : ℕ → ℕ) _ => do
      let det ← pick lib len ((List.range len).map fun i => ‖G i‖ ^ 2)
      pure (Function.update sample det (sample det + 1))) (fun _ => 0) : Rand (ℕ → ℕ)) (k + 1)).bind
        (fun x => Except.ok ((List.range len).map x.1, x.2)) := rfl
  have hsum : ((List.range len).map fun i => ‖G i‖ ^ 2).sum = ∑ i ∈ Finset.range len, ‖G i‖ ^ 2 := by
    rw [← List.sum_toFinset _ List.nodup_range, List.toFinset_range]
  rw [hrun]
  constructor
  · rintro ⟨i, hi, hG⟩
    have hpos : 0 < ((List.range len).map fun i => ‖G i‖ ^ 2).sum := by
      rw [hsum]
      exact Finset.sum_pos' (fun _ _ => by positivity) ⟨i, Finset.mem_range.mpr hi, by positivity⟩
    have hp : ∀ k, ∃ d, pick lib len ((List.range len).map fun i => ‖G i‖ ^ 2) k = .ok (d, k + 1) := by
      intro k
      unfold pick
      rw [if_neg hpos.ne']
      unfold choice
      rw [if_neg]
      · exact ⟨_, rfl⟩
      · push Not
        refine ⟨by omega, by simp, ?_, ?_⟩
        · intro x hx
          obtain ⟨y, hy, rfl⟩ := List.mem_map.mp hx
          obtain ⟨j, -, rfl⟩ := List.mem_map.mp hy
          positivity
        · have h1 := List.sum_map_mul_left ((List.range len).map fun i => ‖G i‖ ^ 2) id (((List.range len).map fun i => ‖G i‖ ^ 2).sum)⁻¹
          simp only [id] at h1
          rw [List.map_id, inv_mul_cancel₀ hpos.ne'] at h1
          have h2 : (((List.range len).map fun i => ‖G i‖ ^ 2).map fun x => x / ((List.range len).map fun i => ‖G i‖ ^ 2).sum).sum = 1 := by
            rw [← h1]
            congr 1
            exact List.map_congr_left fun x _ => div_eq_inv_mul _ _
          rw [h2, sub_self, abs_zero]
          exact hl.tol_nonneg
    have hfold : ∀ (l : List ℕ) (s : ℕ → ℕ) (k : ℕ), ∃ x, (l.foldlM (fun (sample : ℕ → ℕ) _ => do
        let det ← pick lib len ((List.range len).map fun i => ‖G i‖ ^ 2)
        pure (Function.update sample det (sample det + 1))) s : Rand (ℕ → ℕ)) k = .ok x := by
      intro l
      induction l with
      | nil => exact fun s k => ⟨(s, k), rfl⟩
      | cons a l ih =>
        intro s k
        obtain ⟨d, hd⟩ := hp k
        obtain ⟨x, hx⟩ := ih (Function.update s d (s d + 1)) (k + 1)
        refine ⟨x, ?_⟩
        rw [List.foldlM_cons, bind_assoc]
        change (pick lib len ((List.range len).map fun i => ‖G i‖ ^ 2) k).bind _ = _
        rw [hd]
        exact hx
    obtain ⟨x, hx⟩ := hfold (List.range (2 * lib.negBinomial k)) (fun _ => 0) (k + 1)
    exact ⟨_, _, by rw [hx]; rfl⟩
  · intro h0 hn
    obtain ⟨m, hm⟩ : ∃ m, 2 * lib.negBinomial k = m + 1 := ⟨2 * lib.negBinomial k - 1, by omega⟩
    have hz : ((List.range len).map fun i => ‖G i‖ ^ 2).sum = 0 := by
      rw [hsum]
      exact Finset.sum_eq_zero fun i hi => by rw [h0 i (Finset.mem_range.mp hi)]; simp
    have hp : ∀ k, pick lib len ((List.range len).map fun i => ‖G i‖ ^ 2) k = .error .valueError := by
      intro k
      unfold pick
      rw [if_pos hz]
      rfl
    rw [hm, List.range_succ_eq_map, List.foldlM_cons, bind_assoc]
    change ((pick lib len ((List.range len).map fun i => ‖G i‖ ^ 2) (k + 1)).bind _).bind _ = _
    rw [hp]
    rfl

/-- C39: `hafnian_sample_graph_rank_one` returns `samples` rows, each with an even number of photons and one entry for each vertex. -/
theorem hafnianSampleGraphRankOne_correct (lib : Lib) (hl : GoodRng lib) (len : ℕ) (G : ℕ → ℂ) (samples : ℕ) :
    Post (hafnianSampleGraphRankOne lib len G samples) fun rows => rows.length = samples ∧ ∀ n ∈ rows, n.length = len ∧ Even n.sum := by
  have := Post.mapM (γ := ℕ) (fun _ => hafnianSampleRankOne lib len G) (fun n => n.length = len ∧ Even n.sum)
    (fun _ k n k' h => by
      obtain ⟨h1, h2, -⟩ := hafnianSampleRankOne_correct lib hl len G k k' n h
      exact ⟨h1, by rw [h2]; exact even_two_mul _⟩) (List.range samples)
  rwa [List.length_range] at this

/-- A generator for the examples. -/
noncomputable def exampleLib : Lib where
  normal := fun _ _ => 0
  uniform := fun _ => 1 / 2
  negBinomial := fun _ => 1
  multivariateNormal := fun _ _ _ => 0
  poisson := fun _ _ _ _ => 1
  sqrtm := fun _ A => A
  schur := fun _ A => (A, A)
  close := fun a b => decide (a = b)
  chol := fun _ A => .ok A
  tol := 0

theorem exampleLib_good : GoodRng exampleLib := ⟨fun _ => by norm_num [exampleLib], fun _ => by norm_num [exampleLib], le_refl _, by norm_num [exampleLib]⟩

/-- The loop with a generator whose draws of even number are rejected: three rows out of six draws. -/
def exampleGen : Rand (Option (List ℕ)) := fun k => .ok (if k % 2 = 0 then none else some [k, 1], k + 1)

example : collect exampleGen 6 3 [] 0 = .ok ([[1, 1], [3, 1], [5, 1]], 6) := rfl

/-- Two photons from a rank-one graph with two vertices, one of them isolated. -/
example : ∃ n k', hafnianSampleRankOne exampleLib 2 (fun i => if i = 1 then 3 else 0) 0 = .ok (n, k') ∧ n = [0, 2] := by
  have hpick : ∀ k, pick exampleLib 2 ((List.range 2).map fun i => ‖(if i = 1 then (3 : ℂ) else 0)‖ ^ 2) k = .ok (1, k + 1) := by
    intro k
    norm_num [pick, choice, List.range_succ, exampleLib, searchRight, cdf]
  refine ⟨[0, 2], 3, ?_, rfl⟩
  unfold hafnianSampleRankOne
  change Except.bind (List.foldlM (m := Rand) _ _ (List.range 2) 1) _ = _
  simp only [List.range_succ, List.range_zero, List.nil_append, List.cons_append, List.foldlM_cons, List.foldlM_nil]
  have hpick' : ∀ k, pick exampleLib 2 [0, 3 ^ 2] k = .ok (1, k + 1) := fun k => by
    rw [← hpick k]; congr 1; simp [List.range_succ]
  simp [bind, StateT.bind, hpick', Except.bind, pure, StateT.pure, Except.pure]

end Verif.Props
