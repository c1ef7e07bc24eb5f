/-
C98: the samplers with `parallel=True`: the threads share one random number generator.
-/
import Verif.Props.ClickSampleLaw
import Verif.Lemmas.Interleave

set_option linter.style.longLine false
set_option linter.unusedSectionVars false
set_option linter.unusedSimpArgs false

namespace Verif.Props
open Verif.Model Verif.Model.Symp Verif.Model.Conv Verif.Model.Means Verif.Model.Smp Verif.Model.Dec Verif.Model.Checks Verif.Spec Verif.Lemmas Verif.Lemmas.Symp
  Verif.Lemmas.FockS Verif.Lemmas.Outc Verif.Lemmas.Chain Verif.Lemmas.GInt Verif.Lemmas.Rej Matrix MeasureTheory

/-! ### Tasks -/

/-- more rounds do not change the rows -/
theorem collect_mono (gen : Rand (Option (List ℕ))) (fuel fuel' j : ℕ) (acc : List (List ℕ)) (k : ℕ) (r : List (List ℕ) × ℕ) (hf : fuel ≤ fuel') (h : collect gen fuel j acc k = .ok r) :
    collect gen fuel' j acc k = .ok r := by
  induction fuel generalizing fuel' j acc k with
  | zero =>
    rw [collect] at h
    split_ifs at h with hj
    · cases fuel' with
      | zero => rw [collect, if_pos hj]; exact h
      | succ fuel' => rw [collect, if_pos hj]; exact h
    · cases h
  | succ fuel ih =>
    obtain ⟨f, rfl⟩ : ∃ f, fuel' = f + 1 := ⟨fuel' - 1, by omega⟩
    rw [collect] at h ⊢
    split_ifs at h ⊢ with hj
    · exact h
    · change (gen k).bind _ = _ at h
      change (gen k).bind _ = _
      cases e : gen k with
      | error e' => rw [e] at h; cases h
      | ok p =>
        rw [e] at h
        obtain ⟨o, k'⟩ := p
        cases o with
        | none => exact ih f j acc k' (by omega) h
        | some x => exact ih f (j - 1) (acc ++ [x]) k' (by omega) h

/-- the rows of tasks that return one row each -/
theorem tasks_iff (task : ℕ → Lib → Rand (List (List ℕ))) (libs : ℕ → Lib) (hmono : ∀ fuel fuel' lib r, fuel ≤ fuel' → task fuel lib 0 = .ok r → task fuel' lib 0 = .ok r)
    (hone : ∀ fuel lib r, task fuel lib 0 = .ok r → r.1.length = 1) (rows : List (List ℕ)) (hr : rows ≠ []) :
    (∃ fuel, tasks (task fuel) libs rows.length = .ok rows) ↔ ∀ i (h : i < rows.length), ∃ fuel k, task fuel (libs i) 0 = .ok ([rows[i]], k) := by
  constructor
  · rintro ⟨fuel, h⟩
    unfold tasks at h
    have key : ∀ (l : List ℕ) rs, (l.mapM fun i => (task fuel (libs i) 0).map (·.1)) = .ok rs → rs.flatten.length = l.length ∧
        ∀ j (hj : j < l.length) (hj' : j < rs.flatten.length), ∃ k, task fuel (libs l[j]) 0 = .ok ([rs.flatten[j]], k) := by
      intro l
      induction l with
      | nil => intro rs h; rw [List.mapM_nil] at h; cases h; simp
      | cons i l ih =>
        intro rs hrs
        rw [List.mapM_cons] at hrs
        cases e : task fuel (libs i) 0 with
        | error err => rw [e] at hrs; cases hrs
        | ok x =>
          rw [e] at hrs
          cases e2 : l.mapM fun i => (task fuel (libs i) 0).map (·.1) with
          | error err => rw [e2] at hrs; cases hrs
          | ok rs' =>
            rw [e2] at hrs
            cases hrs
            obtain ⟨h3, h4⟩ := ih rs' e2
            have h1 := hone fuel (libs i) x e
            obtain ⟨a, ha⟩ := List.length_eq_one_iff.mp h1
            have hx : task fuel (libs i) 0 = .ok ([a], x.2) := by rw [e, ← ha]
            have hfl : (x.1 :: rs').flatten = a :: rs'.flatten := by rw [List.flatten_cons, ha]; rfl
            refine ⟨by rw [hfl, List.length_cons, List.length_cons, h3], fun j hj hj' => ?_⟩
            cases j with
            | zero =>
              refine ⟨x.2, ?_⟩
              have : (x.1 :: rs').flatten[0] = a := by simp only [hfl, List.getElem_cons_zero]
              rw [this]
              exact hx
            | succ j =>
              have hj2 : j < l.length := by simpa using hj
              obtain ⟨k, hk⟩ := h4 j hj2 (by omega)
              refine ⟨k, ?_⟩
              have : (x.1 :: rs').flatten[j + 1] = rs'.flatten[j]'(by omega) := by simp only [hfl, List.getElem_cons_succ]
              rw [this]
              exact hk
    cases e : (List.range rows.length).mapM fun i => (task fuel (libs i) 0).map (·.1) with
    | error err => rw [e] at h; cases h
    | ok rs =>
      rw [e] at h
      change (if rs.flatten = [] then Except.error PyErr.valueError else Except.ok rs.flatten) = _ at h
      split_ifs at h with h0
      have hrs : rs.flatten = rows := by simpa using h
      obtain ⟨h1, h2⟩ := key _ rs e
      intro i hi
      obtain ⟨k, hk⟩ := h2 i (by simpa using hi) (by rw [h1]; simpa using hi)
      refine ⟨fuel, k, ?_⟩
      simp only [hrs, List.getElem_range] at hk
      exact hk
  · intro h
    have h' : ∀ i, ∃ fuel, i < rows.length → ∃ k, task fuel (libs i) 0 = .ok ([rows.getD i []], k) := by
      intro i
      by_cases hi : i < rows.length
      · obtain ⟨fuel, k, hk⟩ := h i hi
        exact ⟨fuel, fun _ => ⟨k, by rw [List.getD_eq_getElem _ _ hi]; exact hk⟩⟩
      · exact ⟨0, fun h => absurd h hi⟩
    choose fuels hfuels using h'
    refine ⟨(Finset.range rows.length).sup fuels, ?_⟩
    unfold tasks
    rw [mapM_ok _ (fun i => [rows.getD i []]) _ fun i hi => by
      rw [List.mem_range] at hi
      obtain ⟨k, hk⟩ := hfuels i hi
      rw [hmono _ _ _ _ (Finset.le_sup (f := fuels) (Finset.mem_range.mpr hi)) hk]
      rfl]
    have hfl : ((List.range rows.length).map fun i => [rows.getD i []]).flatten = rows := by
      have : (fun i => [rows.getD i []]) = (fun x => [x]) ∘ fun i => rows.getD i [] := rfl
      rw [this, ← List.map_map, ← List.flatMap_def]
      rw [List.flatMap_singleton']
      apply List.ext_getElem
      · simp
      · intro i h1 h2
        rw [List.getElem_map, List.getElem_range, List.getD_eq_getElem _ _ h2]
    change (if ((List.range rows.length).map fun i => [rows.getD i []]).flatten = [] then Except.error PyErr.valueError else Except.ok ((List.range rows.length).map fun i => [rows.getD i []]).flatten) = _
    rw [hfl, if_neg hr]

theorem covChecks_arr (n : ℕ) (cov : ℕ → ℕ → ℝ) : covChecks (.arr n n fun i j => some (cov i j)) = .ok (n, cov) := by
  unfold covChecks
  dsimp only
  rw [if_neg (by simp), if_neg (by simp)]
  rfl

theorem torontonianSample_run (lib : Lib) (fuel n : ℕ) (cov : ℕ → ℕ → ℝ) (samples : ℕ) (mu : ℕ → ℝ) (hbar : ℝ) (maxPhotons fanout cutoff : ℕ) (c : ℕ) :
    torontonianSample lib fuel (.arr n n fun i j => some (cov i j)) samples mu hbar maxPhotons fanout cutoff c =
      (collect (generateTorontonianSample lib ⟨n, mu, cov⟩ hbar maxPhotons fanout cutoff) fuel samples [] c).bind fun p => vstack p.1 p.2 := by
  unfold torontonianSample
  rw [covChecks_arr]
  rfl

theorem hafnianSample_run (lib : Lib) (fuel n : ℕ) (cov : ℕ → ℕ → ℝ) (samples : ℕ) (mu : ℕ → ℝ) (hbar : ℝ) (cutoff maxPhotons : ℕ) (c : ℕ) :
    hafnianSample lib fuel (.arr n n fun i j => some (cov i j)) samples mu hbar cutoff maxPhotons c =
      (collect (generateHafnianSample lib ⟨n, mu, cov⟩ hbar cutoff maxPhotons) fuel samples [] c).bind fun p => vstack p.1 p.2 := by
  unfold hafnianSample
  rw [covChecks_arr]
  rfl

/-- stacking the rows of the loop -/
theorem stack_iff (e : Except PyErr (List (List ℕ) × ℕ)) (rows : List (List ℕ)) (hr : rows ≠ []) (k : ℕ) :
    (e.bind fun p => vstack p.1 p.2) = .ok (rows, k) ↔ e = .ok (rows, k) := by
  have hv : ∀ (rows : List (List ℕ)) (k' : ℕ), vstack rows k' = if rows = [] then .error .valueError else .ok (rows, k') := fun rows k' => by
    unfold vstack
    split_ifs <;> rfl
  cases e with
  | error e => simp [Except.bind]
  | ok p =>
    change vstack p.1 p.2 = _ ↔ _
    rw [hv]
    obtain ⟨rows', k'⟩ := p
    simp only [Except.ok.injEq, Prod.mk.injEq]
    by_cases h : rows' = []
    · rw [if_pos h]
      constructor
      · intro h'; simp at h'
      · rintro ⟨h1, -⟩; exact absurd (h1.symm.trans h) hr
    · rw [if_neg h]
      simp

theorem stack_mono (gen : Rand (Option (List ℕ))) (fuel fuel' j : ℕ) (r : List (List ℕ) × ℕ) (hf : fuel ≤ fuel') (h : ((collect gen fuel j [] 0).bind fun p => vstack p.1 p.2) = .ok r) :
    ((collect gen fuel' j [] 0).bind fun p => vstack p.1 p.2) = .ok r := by
  cases e : collect gen fuel j [] 0 with
  | error e' => rw [e] at h; cases h
  | ok p =>
    rw [collect_mono gen fuel fuel' j [] 0 p hf e]
    rw [e] at h
    exact h

theorem stack_length (gen : Rand (Option (List ℕ))) (fuel j : ℕ) (r : List (List ℕ) × ℕ) (h : ((collect gen fuel j [] 0).bind fun p => vstack p.1 p.2) = .ok r) : r.1.length = j := by
  cases e : collect gen fuel j [] 0 with
  | error e' => rw [e] at h; cases h
  | ok p =>
    rw [e] at h
    obtain ⟨rows, k⟩ := p
    obtain ⟨outs, -, h2, h3, -⟩ := collect_spec gen fuel j [] 0 rows k e
    have hv : vstack rows k = if rows = [] then .error .valueError else .ok (rows, k) := by
      unfold vstack
      split_ifs <;> rfl
    change vstack rows k = _ at h
    rw [hv] at h
    split_ifs at h
    rw [← Except.ok.inj h]
    simp only
    rw [h2, List.nil_append, h3]

/-! ### The threshold sampler -/

section click
variable (lib : Lib) (hl : GoodSampler lib) (htol : 0 ≤ lib.tol) (M : ℕ) (hM : M ≠ 0) (mu : ℕ → ℝ) (cov : ℕ → ℕ → ℝ) (hph : Physical (phase M M cov) 2)
  (hsp : ∀ ν, SympSpectrum (phase M M cov) ν → ∀ i, ν i = 1 ∨ 1 + 1e-10 ≤ ν i) (cutoff : ℕ) (hc : 1 ≤ cutoff) (maxPhotons : ℕ)
  (ρ : (Fin M → ℕ) → (Fin M → ℕ) → ℂ) (hρ : IsFockMatrix M mu cov 2 ρ)

/-- the stream that thread `i` sees when all threads draw from the generator `ω`: `s` decides which thread is next to draw, given all that was drawn before (a thread that never draws again sees zeros) -/
noncomputable def threadStream {K : ℕ} (s : List (Call M) → Fin K) (ω : ℕ → Call M) (i : ℕ) : ℕ → Call M :=
  if h : i < K then seen s ((fun _ => 0), 0) ω ⟨i, h⟩ else ω

/-- the random numbers for which `torontonian_sample_state` with `parallel=True` (ħ = 2, `fanout = 1`) returns the rows `cs` under the schedule `s` -/
def returnsClickRowsParallel (cs : List (Fin M → ℕ)) (s : List (Call M) → Fin cs.length) : Set (ℕ → Call M) :=
  {ω | ∃ fuel, torontonianSampleStateParallel (fun i => withCalls lib (threadStream M s ω i)) fuel false (.arr (2 * M) (2 * M) fun i j => some (cov i j)) cs.length mu 2 maxPhotons 1 cutoff = .ok (cs.map List.ofFn)}

/-- the schedule gives each thread as many random numbers as decide which row it returns -/
def ServedClicks (K : ℕ) (s : List (Call M) → Fin K) (ω : ℕ → Call M) : Prop :=
  ∀ (i : Fin K) (ζ : ℕ → Call M), (∀ k, (∃ t, isNth s ω i k t) → ζ k = threadStream M s ω i k) →
    ∀ c, ζ ∈ returnsClickRows lib M mu cov cutoff maxPhotons [c] ↔ threadStream M s ω i ∈ returnsClickRows lib M mu cov cutoff maxPhotons [c]

/-- the calls whose uniform number lies in `[0, 1)` -/
def unitCalls : Set (Call M) := {c | c.2 ∈ Set.Ico (0 : ℝ) 1}

theorem unitCalls_meas : MeasurableSet (unitCalls M) := measurable_snd measurableSet_Ico

theorem unitCalls_compl : callLaw M (unitCalls M)ᶜ = 0 := by
  have h1 : ∀ᵐ u ∂(volume.restrict (Set.Ico (0 : ℝ) 1)), u ∈ Set.Ico (0 : ℝ) 1 := ae_restrict_mem measurableSet_Ico
  have h2 : MeasurePreserving (Prod.snd : Call M → _) (callLaw M) (volume.restrict (Set.Ico (0 : ℝ) 1)) := measurePreserving_snd
  have := h2.quasiMeasurePreserving.ae h1
  rw [ae_iff] at this
  exact this

/-- the rows in terms of the tasks -/
theorem parallelClicks_iff (cs : List (Fin M → ℕ)) (hcs : cs ≠ []) (s : List (Call M) → Fin cs.length) (ω : ℕ → Call M) :
    ω ∈ returnsClickRowsParallel lib M mu cov cutoff maxPhotons cs s ↔
      ∀ i : Fin cs.length, seen s ((fun _ => 0), 0) ω i ∈ returnsClickRows lib M mu cov cutoff maxPhotons [cs[i]] := by
  have h := tasks_iff (fun fuel lib => torontonianSample lib fuel (.arr (2 * M) (2 * M) fun i j => some (cov i j)) 1 mu 2 maxPhotons 1 cutoff) (fun i => withCalls lib (threadStream M s ω i))
    (fun fuel fuel' lib r hf h => by
      rw [torontonianSample_run] at h ⊢
      exact stack_mono _ _ _ _ _ hf h)
    (fun fuel lib r h => by
      rw [torontonianSample_run] at h
      exact stack_length _ _ _ _ h) (cs.map List.ofFn) (by simpa using hcs)
  refine Iff.trans ?_ (h.trans ?_)
  · simp only [List.length_map]
    rfl
  constructor
  · intro h i
    obtain ⟨fuel, k, hk⟩ := h i (by simp)
    refine ⟨fuel, k, ?_⟩
    simp only [threadStream, dif_pos i.2, List.getElem_map] at hk
    exact hk
  · intro h i hi
    rw [List.length_map] at hi
    obtain ⟨fuel, k, hk⟩ := h ⟨i, hi⟩
    refine ⟨fuel, k, ?_⟩
    simp only [threadStream, dif_pos hi, List.getElem_map]
    exact hk

include hl htol hM hph hsp hc hρ

/-- the streams for which given rows are returned, up to uniform numbers outside `[0, 1)` -/
theorem returnsClickRows_measurable (cs : List (Fin M → ℕ)) (hcs : cs ≠ []) :
    ∃ S : Set (ℕ → Call M), MeasurableSet S ∧ ∀ ω, (∀ k, ω k ∈ unitCalls M) → (ω ∈ returnsClickRows lib M mu cov cutoff maxPhotons cs ↔ ω ∈ S) := by
  classical
  obtain ⟨A, R, hA, hR, hRd, hgen, hb, hq⟩ := click_round_events lib hl htol ⟨2 * M, mu, cov⟩ M hM rfl hph hsp cutoff hc maxPhotons ρ hρ
  have hpm : Measurable (pick : (ℕ → Call M) → RoundDraws M) := (pick_preserving M).measurable
  refine ⟨⋃ f, stops (2 + 2 * M + M) (fun c => pick ⁻¹' A c) (fun m : Fin M => 2 + 2 * M + (m + 1)) (fun m => pick ⁻¹' R m) f cs,
    MeasurableSet.iUnion fun f => stops_measurable (fun c => hpm (hA c)) (fun m => hpm (hR m)) f cs, fun ω hω => ?_⟩
  change (∃ fuel k, _) ↔ ω ∈ ⋃ f, stops (2 + 2 * M + M) (fun c => pick ⁻¹' A c) (fun m : Fin M => 2 + 2 * M + (m + 1)) (fun m => pick ⁻¹' R m) f cs
  rw [Set.mem_iUnion]
  refine exists_congr fun fuel => ?_
  have hround : ∀ c, (∀ l k, generateTorontonianSample (withCalls lib ω) ⟨2 * M, mu, cov⟩ 2 maxPhotons 1 cutoff c = .ok (some l, k) ↔ k = c + (2 + 2 * M + M) ∧ ∃ x, l = List.ofFn x ∧ pick (skip c ω) ∈ A x) ∧
      ∀ k, generateTorontonianSample (withCalls lib ω) ⟨2 * M, mu, cov⟩ 2 maxPhotons 1 cutoff c = .ok (none, k) ↔ ∃ m : Fin M, k = c + (2 + 2 * M + (m + 1)) ∧ pick (skip c ω) ∈ R m := fun c =>
    hgen (withCalls lib ω).normal (withCalls lib ω).uniform c (pick (skip c ω)) (fun k => hω _) rfl rfl (fun k hk => by
      simp only [withCalls, pick, skip]
      rw [show c + (2 + 2 * M) + k = c + (2 + 2 * M + k) by omega])
  have hcol := collect_stops (generateTorontonianSample (withCalls lib ω) ⟨2 * M, mu, cov⟩ 2 maxPhotons 1 cutoff) (2 + 2 * M + M) (fun m : Fin M => 2 + 2 * M + (m + 1)) ω
    (fun c => pick ⁻¹' A c) (fun m => pick ⁻¹' R m) (fun t => List.ofFn t) (fun c => (hround c).1) (fun c => (hround c).2) fuel 0 cs.length [] (cs.map List.ofFn)
  have hst : ∀ k, torontonianSampleState (withCalls lib ω) fuel (.arr (2 * M) (2 * M) fun i j => some (cov i j)) cs.length mu 2 maxPhotons 1 cutoff 0 = .ok (cs.map List.ofFn, k) ↔
      collect (generateTorontonianSample (withCalls lib ω) ⟨2 * M, mu, cov⟩ 2 maxPhotons 1 cutoff) fuel cs.length [] 0 = .ok (cs.map List.ofFn, k) := fun k => by
    have hck : covChecks (.arr (2 * M) (2 * M) fun i j => some (cov i j)) = .ok (2 * M, cov) := by
      unfold covChecks
      dsimp only
      rw [if_neg (by simp), if_neg (by simp)]
      rfl
    have hrun : torontonianSampleState (withCalls lib ω) fuel (.arr (2 * M) (2 * M) fun i j => some (cov i j)) cs.length mu 2 maxPhotons 1 cutoff 0 =
        (collect (generateTorontonianSample (withCalls lib ω) ⟨2 * M, mu, cov⟩ 2 maxPhotons 1 cutoff) fuel cs.length [] 0).bind fun p => vstack p.1 p.2 := by
      unfold torontonianSampleState torontonianSample
      rw [hck]
      rfl
    rw [hrun]
    generalize collect (generateTorontonianSample (withCalls lib ω) ⟨2 * M, mu, cov⟩ 2 maxPhotons 1 cutoff) fuel cs.length [] 0 = e
    have hv : ∀ (rows : List (List ℕ)) (k' : ℕ), vstack rows k' = if rows = [] then .error .valueError else .ok (rows, k') := fun rows k' => by
      unfold vstack
      split_ifs <;> rfl
    cases e with
    | error e => simp [Except.bind]
    | ok p =>
      change vstack p.1 p.2 = _ ↔ _
      rw [hv]
      obtain ⟨rows, k'⟩ := p
      have hne : cs.map List.ofFn ≠ [] := by simpa using hcs
      simp only [Except.ok.injEq, Prod.mk.injEq]
      by_cases h : rows = []
      · rw [if_pos h]
        constructor
        · intro h'; simp at h'
        · rintro ⟨h1, -⟩; exact absurd (h1.symm.trans h) hne
      · rw [if_neg h]
        simp
  rw [exists_congr hst, hcol, skip_zero]
  have hinj : Function.Injective (List.map (List.ofFn : (Fin M → ℕ) → List ℕ)) := List.map_injective_iff.mpr List.ofFn_injective
  constructor
  · rintro ⟨xs, -, h2, h3⟩
    rw [List.nil_append] at h2
    rwa [hinj h2]
  · intro h
    exact ⟨cs, rfl, rfl, h⟩

/-- **C98** With `parallel=True` the threads draw from one generator.  For every schedule - which thread draws next may depend on everything drawn before - that lets each thread finish, the rows that `torontonian_sample_state`
returns have the same law as those of `parallel=False`: they are independent, and each has the law of one run given that the run does not give up. -/
theorem torontonianSampleStateParallel_law (cs : List (Fin M → ℕ)) (hcs : cs ≠ []) (s : List (Call M) → Fin cs.length) (hs : SchedMeas s)
    (hserved : ∀ᵐ ω ∂callsLaw M, ServedClicks lib M mu cov cutoff maxPhotons cs.length s ω) :
    (callsLaw M).real (returnsClickRowsParallel lib M mu cov cutoff maxPhotons cs s) = (callsLaw M).real (returnsClickRows lib M mu cov cutoff maxPhotons cs) := by
  classical
  have hE : returnsClickRowsParallel lib M mu cov cutoff maxPhotons cs s = {ω | ∀ i, seen s ((fun _ => 0), 0) ω i ∈ returnsClickRows lib M mu cov cutoff maxPhotons [cs[i]]} :=
    Set.ext fun ω => parallelClicks_iff lib M mu cov cutoff maxPhotons cs hcs s ω
  choose S hS hSA using fun i : Fin cs.length => returnsClickRows_measurable lib hl htol M hM mu cov hph hsp cutoff hc maxPhotons ρ hρ [cs[i]] (by simp)
  rw [hE, callsLaw, shared_stream (callLaw M) hs ((fun _ => 0), 0) (unitCalls M) (unitCalls_meas M) (unitCalls_compl M) (by simp [unitCalls])
    (fun i => returnsClickRows lib M mu cov cutoff maxPhotons [cs[i]]) S hS hSA ?_]
  · change ∏ i : Fin cs.length, (callsLaw M).real (returnsClickRows lib M mu cov cutoff maxPhotons [cs[i]]) = (callsLaw M).real _
    rw [torontonianSampleState_law lib hl htol M hM mu cov hph hsp cutoff hc maxPhotons ρ hρ cs hcs]
    rw [← Fin.prod_univ_getElem]
    simp only [List.length_map, List.getElem_map]
    refine Fintype.prod_equiv (finCongr (by simp)) _ _ fun i => ?_
    rw [torontonianSampleState_law lib hl htol M hM mu cov hph hsp cutoff hc maxPhotons ρ hρ [cs[i]] (by simp), List.map_singleton, List.prod_singleton]
    rfl
  · filter_upwards [hserved] with ω hω i ζ hζ
    have := hω i ζ (fun k hk => by rw [hζ k hk, threadStream, dif_pos i.2]) cs[i]
    rw [threadStream, dif_pos i.2] at this
    exact this

/-- the same for schedules that turn to every thread again and again -/
theorem torontonianSampleStateParallel_fair (cs : List (Fin M → ℕ)) (hcs : cs ≠ []) (s : List (Call M) → Fin cs.length) (hs : SchedMeas s)
    (hfair : ∀ᵐ ω ∂callsLaw M, ∀ i t, ∃ t' ≥ t, s (past ω t') = i) :
    (callsLaw M).real (returnsClickRowsParallel lib M mu cov cutoff maxPhotons cs s) = (callsLaw M).real (returnsClickRows lib M mu cov cutoff maxPhotons cs) := by
  refine torontonianSampleStateParallel_law lib hl htol M hM mu cov hph hsp cutoff hc maxPhotons ρ hρ cs hcs s hs ?_
  filter_upwards [hfair] with ω hω i ζ hζ c
  simp only [threadStream, dif_pos i.2, Fin.eta] at hζ ⊢
  rw [seen_of_fair s _ ω i (hω i) ζ hζ]

end click

/-- **C98** As the cutoff grows, the rows that `torontonian_sample_state` returns with `parallel=True` become independent samples of the click statistics of the state, conditioned on at most `max_photons` clicks,
for every family of schedules. -/
theorem torontonianSampleStateParallel_limit (lib : Lib) (hl : GoodSampler lib) (htol : 0 ≤ lib.tol) (M : ℕ) (hM : M ≠ 0) (mu : ℕ → ℝ) (cov : ℕ → ℕ → ℝ) (hph : Physical (phase M M cov) 2)
    (hsp : ∀ ν, SympSpectrum (phase M M cov) ν → ∀ i, ν i = 1 ∨ 1 + 1e-10 ≤ ν i) (maxPhotons : ℕ) (ρ : (Fin M → ℕ) → (Fin M → ℕ) → ℂ) (hρ : IsFockMatrix M mu cov 2 ρ)
    (cs : List (Fin M → ℕ)) (hcs : cs ≠ []) (hc01 : ∀ c ∈ cs, ∀ i, c i = 0 ∨ c i = 1) (hmax : ∀ c ∈ cs, ∑ i, c i ≤ maxPhotons)
    (s : ℕ → List (Call M) → Fin cs.length) (hs : ∀ cutoff, SchedMeas (s cutoff))
    (hserved : ∀ cutoff, ∀ᵐ ω ∂callsLaw M, ServedClicks lib M mu cov cutoff maxPhotons cs.length (s cutoff) ω) :
    Filter.Tendsto (fun cutoff => (callsLaw M).real (returnsClickRowsParallel lib M mu cov cutoff maxPhotons cs (s cutoff))) Filter.atTop
      (nhds (cs.map fun c => (∑' t : {t : Fin M → ℕ // ∀ i, 0 < t i ↔ c i = 1}, (ρ t t).re) / fewClicks ρ maxPhotons).prod) := by
  refine (torontonianSampleState_limit lib hl htol M hM mu cov hph hsp maxPhotons ρ hρ cs hcs hc01 hmax).congr' ?_
  filter_upwards [Filter.eventually_ge_atTop 1] with cutoff hc
  exact (torontonianSampleStateParallel_law lib hl htol M hM mu cov hph hsp cutoff hc maxPhotons ρ hρ cs hcs (s cutoff) (hs cutoff) (hserved cutoff)).symm

/-- A concrete case: two entangled modes, and threads that take turns (for example two, `cs = [(0, 1), (0, 0)]`). -/
example (mu : ℕ → ℝ) (cs : List (Fin 2 → ℕ)) [NeZero cs.length] : ∃ lib, GoodSampler lib ∧ 0 ≤ lib.tol ∧
    (callsLaw 2).real (returnsClickRowsParallel lib 2 mu tmsExample 5 1 cs (roundRobin cs.length)) = (callsLaw 2).real (returnsClickRows lib 2 mu tmsExample 5 1 cs) := by
  obtain ⟨lib0, hl0, -⟩ := goodSampler_exists exampleLib
  have hl : GoodSampler { lib0 with tol := 1 } := ⟨hl0.1, hl0.2, hl0.3, hl0.4⟩
  have hph : Physical (phase 2 2 tmsExample) 2 := (physical_iff_spectrum _ 2 (by norm_num) _ tmsExample_spec).mpr fun _ => by norm_num
  obtain ⟨ρ, _, _, -, hρ, -⟩ := fock_gram (N := 2) mu (by norm_num : (0 : ℝ) < 2) hph
  refine ⟨_, hl, by norm_num, ?_⟩
  refine torontonianSampleStateParallel_fair _ hl (by norm_num) 2 (by norm_num) mu tmsExample hph (fun ν hν i => Or.inl ?_) 5 (by norm_num) 1 ρ hρ cs (List.ne_nil_of_length_pos (Nat.pos_of_ne_zero (NeZero.ne _))) (roundRobin cs.length) roundRobin_measurable
    (Filter.Eventually.of_forall fun ω i t => roundRobin_fair ω i t)
  have hp := sympSpectrum_unique _ _ _ hν tmsExample_spec
  have hm : ν i ∈ List.ofFn fun _ : Fin 2 => (1 : ℝ) := hp.mem_iff.mp (List.mem_ofFn.mpr ⟨i, rfl⟩)
  obtain ⟨j, hj⟩ := List.mem_ofFn.mp hm
  exact hj.symm

end Verif.Props
