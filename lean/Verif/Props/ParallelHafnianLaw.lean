/-
C98: the photon-number samplers with `parallel=True`: the threads share one random number generator.
-/
import Verif.Props.ParallelSampleLaw
import Verif.Props.SampleGraphLaw
import Verif.Props.ClickGraphLaw

set_option linter.style.longLine false
set_option linter.unusedSectionVars false
set_option linter.unusedSimpArgs false

namespace Verif.Props
open Verif.Model Verif.Model.Symp Verif.Model.Conv Verif.Model.Means Verif.Model.Smp Verif.Model.Dec Verif.Model.Checks Verif.Spec Verif.Lemmas Verif.Lemmas.Symp
  Verif.Lemmas.FockS Verif.Lemmas.Outc Verif.Lemmas.Chain Verif.Lemmas.GInt Verif.Lemmas.Rej Matrix MeasureTheory

/-- the numbers that a round of `generate_hafnian_sample` uses -/
def hafPick {M : ℕ} (ω : ℕ → Call M) : RoundDraws M := ((ω 0).1, (ω 1).1, fun i => (ω (2 + i)).2)

theorem hafPick_preserving (M : ℕ) : MeasurePreserving (hafPick : (ℕ → Call M) → RoundDraws M) (callsLaw M) (drawLaw M) := by
  have h1 : MeasurePreserving (Prod.fst : Call M → _) (callLaw M) (stdNormal (Fin (2 * M))) := measurePreserving_fst
  have h2 : MeasurePreserving (Prod.snd : Call M → _) (callLaw M) (volume.restrict (Set.Ico (0 : ℝ) 1)) := measurePreserving_snd
  have h3 := coords_preserving (callLaw M) _ _ h2 (fun i : Fin M => (i : ℕ)) fun i j h => Fin.ext (by simpa using h)
  have h4 : MeasurePreserving (fun ω : ℕ → Call M => ((ω 0).1, fun i : Fin M => (skip 1 ω i).2)) (callsLaw M)
      ((stdNormal (Fin (2 * M))).prod (Measure.pi fun _ => volume.restrict (Set.Ico 0 1))) := (h1.prod h3).comp (unfront_preserving (callLaw M))
  have h5 : MeasurePreserving (fun ω : ℕ → Call M => ((ω 0).1, (skip 1 ω 0).1, fun i : Fin M => (skip 1 (skip 1 ω) i).2)) (callsLaw M) (drawLaw M) :=
    (h1.prod h4).comp (unfront_preserving (callLaw M))
  have e : (hafPick : (ℕ → Call M) → RoundDraws M) = fun ω : ℕ → Call M => ((ω 0).1, (skip 1 ω 0).1, fun i : Fin M => (skip 1 (skip 1 ω) i).2) := by
    funext ω
    unfold hafPick
    simp only [skip]
    refine Prod.ext rfl (Prod.ext rfl (funext fun i => ?_))
    dsimp only
    rw [show 2 + (i : ℕ) = 1 + (1 + i) by omega]
  rw [e]
  exact h5

/-- a round of a run, call by call -/
theorem generate_round_calls (lib : Lib) (hl : GoodSampler lib) (s : GState ℝ) (M : ℕ) (hM : M ≠ 0) (hs : s.len = 2 * M) (hph : Physical (phase M M s.cov) 2)
    (hsp : ∀ ν, SympSpectrum (phase M M s.cov) ν → ∀ i, ν i = 1 ∨ 1 + 1e-10 ≤ ν i) (cutoff : ℕ) (hc : 1 ≤ cutoff) (maxPhotons : ℕ) (ω : ℕ → Call M) (c : ℕ) (r : Option (List ℕ)) (k : ℕ) :
    (generateHafnianSample (withCalls lib ω) s 2 cutoff maxPhotons c = .ok (r, k) ↔
      k = c + (M + 2) ∧ ∃ k', generateHafnianSample (withDraws lib (hafPick (skip c ω)).1 (hafPick (skip c ω)).2.1 (hafPick (skip c ω)).2.2) s 2 cutoff maxPhotons 0 = .ok (r, k')) ∧
    ∀ l, r = some l → generateHafnianSample (withCalls lib ω) s 2 cutoff maxPhotons c = .ok (r, k) → l.length = M := by
  obtain ⟨order, inv, means, r', T, W, C, -, -, -, hilen, -, -, -, hT, -, -, -, hrun⟩ := generateHafnianSample_born_all lib hl s M hM hs hph hsp cutoff hc maxPhotons
  have hex : ∀ mu, ∃ ρ, IsFockMatrix M mu T 2 ρ := fun mu => by
    obtain ⟨ρ, _, _, -, h, -⟩ := fock_gram (N := M) mu (by norm_num : (0 : ℝ) < 2) hT
    exact ⟨ρ, h⟩
  choose ρf hρf using hex
  have e1 : generateHafnianSample (withCalls lib ω) s 2 cutoff maxPhotons = bornSampler (withCalls lib ω) r'.mu W C ρf inv cutoff maxPhotons := hrun (withCalls lib ω).normal (withCalls lib ω).uniform ρf hρf
  obtain ⟨d, hd⟩ : ∃ d, d = hafPick (skip c ω) := ⟨_, rfl⟩
  have e2 : generateHafnianSample (withDraws lib d.1 d.2.1 d.2.2) s 2 cutoff maxPhotons = bornSampler (withDraws lib d.1 d.2.1 d.2.2) r'.mu W C ρf inv cutoff maxPhotons :=
    hrun (withDraws lib d.1 d.2.1 d.2.2).normal (withDraws lib d.1 d.2.1 d.2.2).uniform ρf hρf
  rw [← hd, e1, e2]
  refine ⟨?_, fun l hl h => ?_⟩
  · rw [bornSampler_shift (withCalls lib ω) (withDraws lib d.1 d.2.1 d.2.2) rfl r'.mu W C ρf inv cutoff maxPhotons c ?_ ?_ ?_ r k]
    · simp only [withCalls, withDraws, hd, hafPick, skip, if_true, add_zero]
    · simp only [withCalls, withDraws, hd, hafPick, skip, one_ne_zero, if_false]
    · intro i hi
      simp only [withCalls, withDraws, hd, hafPick, skip, seq]
      rw [dif_pos (by omega)]
      simp
  · subst hl
    rw [bornSampler_length _ _ _ _ _ _ _ _ _ h, hilen]

section law
variable (lib : Lib) (hl : GoodSampler lib) (htol : 0 ≤ lib.tol) (M : ℕ) (hM : M ≠ 0) (mu : ℕ → ℝ) (cov : ℕ → ℕ → ℝ) (hph : Physical (phase M M cov) 2)
  (hsp : ∀ ν, SympSpectrum (phase M M cov) ν → ∀ i, ν i = 1 ∨ 1 + 1e-10 ≤ ν i) (cutoff : ℕ) (hc : 1 ≤ cutoff) (maxPhotons : ℕ)
  (ρ : (Fin M → ℕ) → (Fin M → ℕ) → ℂ) (hρ : IsFockMatrix M mu cov 2 ρ)

/-- the random numbers, call by call, for which `hafnian_sample_state` (ħ = 2) ends and returns the rows `ts` -/
def returnsRowsCalls (ts : List (Fin M → ℕ)) : Set (ℕ → Call M) :=
  {ω | ∃ fuel k, hafnianSampleState (withCalls lib ω) fuel (.arr (2 * M) (2 * M) fun i j => some (cov i j)) ts.length mu 2 cutoff maxPhotons 0 = .ok (ts.map List.ofFn, k)}

/-- the random numbers for which `hafnian_sample_state` with `parallel=True` (ħ = 2) returns the rows `ts` under the schedule `s` -/
def returnsRowsParallel (ts : List (Fin M → ℕ)) (s : List (Call M) → Fin ts.length) : Set (ℕ → Call M) :=
  {ω | ∃ fuel, hafnianSampleStateParallel (fun i => withCalls lib (threadStream M s ω i)) fuel false (.arr (2 * M) (2 * M) fun i j => some (cov i j)) ts.length mu 2 cutoff maxPhotons = .ok (ts.map List.ofFn)}

/-- the schedule gives each thread as many random numbers as decide which row it returns -/
def ServedRows (K : ℕ) (s : List (Call M) → Fin K) (ω : ℕ → Call M) : Prop :=
  ∀ (i : Fin K) (ζ : ℕ → Call M), (∀ k, (∃ t, isNth s ω i k t) → ζ k = threadStream M s ω i k) →
    ∀ t, ζ ∈ returnsRowsCalls lib M mu cov cutoff maxPhotons [t] ↔ threadStream M s ω i ∈ returnsRowsCalls lib M mu cov cutoff maxPhotons [t]

/-- the rows in terms of the tasks -/
theorem parallelRows_iff (ts : List (Fin M → ℕ)) (hts : ts ≠ []) (s : List (Call M) → Fin ts.length) (ω : ℕ → Call M) :
    ω ∈ returnsRowsParallel lib M mu cov cutoff maxPhotons ts s ↔
      ∀ i : Fin ts.length, seen s ((fun _ => 0), 0) ω i ∈ returnsRowsCalls lib M mu cov cutoff maxPhotons [ts[i]] := by
  have h := tasks_iff (fun fuel lib => hafnianSample lib fuel (.arr (2 * M) (2 * M) fun i j => some (cov i j)) 1 mu 2 cutoff maxPhotons) (fun i => withCalls lib (threadStream M s ω i))
    (fun fuel fuel' lib r hf h => by
      rw [hafnianSample_run] at h ⊢
      exact stack_mono _ _ _ _ _ hf h)
    (fun fuel lib r h => by
      rw [hafnianSample_run] at h
      exact stack_length _ _ _ _ h) (ts.map List.ofFn) (by simpa using hts)
  refine Iff.trans ?_ (h.trans ?_)
  · simp only [List.length_map]
    rfl
  constructor
  · intro h i
    obtain ⟨fuel, k, hk⟩ := h i (by simp)
    refine ⟨fuel, k, ?_⟩
    simp only [threadStream, dif_pos i.2, List.getElem_map] at hk
    exact hk
  · intro h i hi
    rw [List.length_map] at hi
    obtain ⟨fuel, k, hk⟩ := h ⟨i, hi⟩
    refine ⟨fuel, k, ?_⟩
    simp only [threadStream, dif_pos hi, List.getElem_map]
    exact hk

include hl htol hM hph hsp hc hρ

/-- the events behind the rows -/
theorem rowsCalls_events : ∃ (A : (Fin M → ℕ) → Set (RoundDraws M)) (R : Set (RoundDraws M)), (∀ t, MeasurableSet (A t)) ∧ MeasurableSet R ∧ (∀ t, Disjoint (A t) R) ∧
    (∀ t, (drawLaw M).real (returns lib ⟨2 * M, mu, cov⟩ M cutoff maxPhotons t) = (drawLaw M).real (A t)) ∧
    (drawLaw M).real (rejects lib ⟨2 * M, mu, cov⟩ M cutoff maxPhotons) = (drawLaw M).real R ∧ (drawLaw M).real R < 1 ∧
    ∀ ts : List (Fin M → ℕ), ts ≠ [] → ∀ ω, (∀ k, ω k ∈ unitCalls M) → (ω ∈ returnsRowsCalls lib M mu cov cutoff maxPhotons ts ↔
      ω ∈ ⋃ f, stops (M + 2) (fun t => hafPick ⁻¹' A t) (fun _ : Unit => M + 2) (fun _ => hafPick ⁻¹' R) f ts) := by
  classical
  obtain ⟨A, R, hA, hR, hd, hAR, hq1, hq2⟩ := round_events lib hl htol M hM mu cov hph hsp cutoff hc maxPhotons ρ hρ
  have hae : ∀ᵐ ω ∂drawLaw M, ω ∈ unitDraws M := by
    rw [ae_iff]
    exact unitDraws_compl M
  have hAe : ∀ t, (drawLaw M).real (returns lib ⟨2 * M, mu, cov⟩ M cutoff maxPhotons t) = (drawLaw M).real (A t) := fun t => measureReal_congr (by
    filter_upwards [hae] with ω hω
    exact propext ((hAR ω hω).1 t))
  have hRe : (drawLaw M).real (rejects lib ⟨2 * M, mu, cov⟩ M cutoff maxPhotons) = (drawLaw M).real R := measureReal_congr (by
    filter_upwards [hae] with ω hω
    exact propext (hAR ω hω).2)
  have hnn : ∀ m, 0 ≤ (ρ m m).re := fun m => ((fock_isPsd (by norm_num) hph hρ).diag m).1
  have hvac : 0 < (ρ 0 0).re := by
    obtain ⟨h1, h2⟩ := fockMatrix_vacuum (by norm_num) hph hρ
    rw [h1, Complex.ofReal_re]
    exact h2
  have hq : (drawLaw M).real R < 1 := by
    have h0 : (0 : Fin M → ℕ) ∈ accepted M cutoff maxPhotons := (mem_accepted hM).mpr ⟨fun i => Nat.zero_le _, by change 0 ≠ cutoff; omega, by simp⟩
    have := Finset.single_le_sum (fun t _ => hnn t) h0
    linarith
  refine ⟨A, R, hA, hR, hd, hAe, hRe, hq, fun ts hts ω hω => ?_⟩
  change (∃ fuel k, _) ↔ ω ∈ ⋃ f, stops (M + 2) (fun t => hafPick ⁻¹' A t) (fun _ : Unit => M + 2) (fun _ => hafPick ⁻¹' R) f ts
  rw [Set.mem_iUnion]
  refine exists_congr fun fuel => ?_
  have hu : ∀ c, hafPick (skip c ω) ∈ unitDraws M := fun c k => hω _
  have hgen := generate_round_calls lib hl ⟨2 * M, mu, cov⟩ M hM rfl hph hsp cutoff hc maxPhotons ω
  have hcol := collect_stops (generateHafnianSample (withCalls lib ω) ⟨2 * M, mu, cov⟩ 2 cutoff maxPhotons) (M + 2) (fun _ : Unit => M + 2) ω (fun t => hafPick ⁻¹' A t) (fun _ => hafPick ⁻¹' R)
    (fun t => List.ofFn t) (fun c l k => ?_) (fun c k => ?_) fuel 0 ts.length [] (ts.map List.ofFn)
  · have hst : ∀ k, hafnianSampleState (withCalls lib ω) fuel (.arr (2 * M) (2 * M) fun i j => some (cov i j)) ts.length mu 2 cutoff maxPhotons 0 = .ok (ts.map List.ofFn, k) ↔
        collect (generateHafnianSample (withCalls lib ω) ⟨2 * M, mu, cov⟩ 2 cutoff maxPhotons) fuel ts.length [] 0 = .ok (ts.map List.ofFn, k) := fun k => by
      unfold hafnianSampleState
      rw [hafnianSample_run]
      exact stack_iff _ _ (by simpa using hts) k
    rw [exists_congr hst, hcol, skip_zero]
    have hinj : Function.Injective (List.map (List.ofFn : (Fin M → ℕ) → List ℕ)) := List.map_injective_iff.mpr List.ofFn_injective
    constructor
    · rintro ⟨xs, -, h2, h3⟩
      rw [List.nil_append] at h2
      rwa [hinj h2]
    · intro h
      exact ⟨ts, rfl, rfl, h⟩
  · rw [(hgen c (some l) k).1]
    refine and_congr_right fun hk => ?_
    constructor
    · rintro ⟨k', h⟩
      have hlen := (hgen c (some l) k).2 l rfl ((hgen c (some l) k).1.mpr ⟨hk, k', h⟩)
      have hof : l = List.ofFn fun i : Fin M => l[(i : ℕ)]'(by omega) := by
        apply List.ext_getElem
        · simp [hlen]
        · intro i h1 h2
          simp
      refine ⟨_, hof, ((hAR _ (hu c)).1 _).mp ?_⟩
      exact ⟨k', by rw [← hof]; exact h⟩
    · rintro ⟨t, rfl, ht⟩
      obtain ⟨k', h⟩ := ((hAR _ (hu c)).1 t).mpr ht
      exact ⟨k', h⟩
  · rw [(hgen c none k).1]
    constructor
    · rintro ⟨h1, h2⟩
      exact ⟨(), h1, (hAR _ (hu c)).2.mp h2⟩
    · rintro ⟨_, h1, h2⟩
      exact ⟨h1, (hAR _ (hu c)).2.mpr h2⟩

/-- **C98** The rows of `hafnian_sample_state` when the calls to the generator are independent (C95 numbers the same calls round by round). -/
theorem hafnianSampleState_calls (ts : List (Fin M → ℕ)) (hts : ts ≠ []) :
    (callsLaw M).real (returnsRowsCalls lib M mu cov cutoff maxPhotons ts) = (streamLaw M).real (returnsRows lib M mu cov cutoff maxPhotons ts) := by
  classical
  rw [hafnianSampleState_law lib hl htol M hM mu cov hph hsp cutoff hc maxPhotons ρ hρ ts hts]
  obtain ⟨A, R, hA, hR, hd, hAe, hRe, hq, hev⟩ := rowsCalls_events lib hl htol M hM mu cov hph hsp cutoff hc maxPhotons ρ hρ
  simp only [hAe, hRe]
  have hpm : Measurable (hafPick : (ℕ → Call M) → RoundDraws M) := (hafPick_preserving M).measurable
  have hpA : ∀ c, (callsLaw M).real (hafPick ⁻¹' A c) = (drawLaw M).real (A c) := fun c => by
    rw [measureReal_def, measureReal_def, (hafPick_preserving M).measure_preimage (hA c).nullMeasurableSet]
  have hpR : (callsLaw M).real (⋃ _ : Unit, hafPick ⁻¹' R) = (drawLaw M).real R := by
    rw [Set.iUnion_const, measureReal_def, measureReal_def, (hafPick_preserving M).measure_preimage hR.nullMeasurableSet]
  have hdep : ∀ (S : Set (RoundDraws M)) (ω ω' : ℕ → Call M), (∀ i < M + 2, ω i = ω' i) → ω ∈ hafPick ⁻¹' S → ω' ∈ hafPick ⁻¹' S := fun S ω ω' h hω => by
    have : hafPick ω = hafPick ω' := by
      unfold hafPick
      rw [h 0 (by omega), h 1 (by omega)]
      refine Prod.ext rfl (Prod.ext rfl (funext fun i => ?_))
      dsimp only
      rw [h (2 + i) (by omega)]
    change hafPick ω' ∈ S
    rw [← this]
    exact hω
  have hlaw := stops_law (callLaw M) (L := M + 2) (A := fun c => hafPick ⁻¹' A c) (l := fun _ : Unit => M + 2) (R := fun _ => hafPick ⁻¹' R)
    (fun c => hpm (hA c)) (fun m => hpm hR) (fun c => hdep (A c)) (fun m => hdep R) (fun c m => ?_) (fun m m' hmm => absurd rfl hmm)
    (by rw [show (Measure.infinitePi fun _ : ℕ => callLaw M) = callsLaw M from rfl, hpR]; exact hq) ts
  · rw [show (Measure.infinitePi fun _ : ℕ => callLaw M) = callsLaw M from rfl, hpR] at hlaw
    simp only [hpA] at hlaw
    rw [← hlaw]
    refine measureReal_congr ?_
    have haes : ∀ᵐ ω ∂callsLaw M, ∀ j, ω j ∈ unitCalls M := by
      rw [ae_all_iff]
      intro j
      have h1 : ∀ᵐ u ∂callLaw M, u ∈ unitCalls M := by
        rw [ae_iff]
        exact unitCalls_compl M
      exact (measurePreserving_eval_infinitePi (fun _ : ℕ => callLaw M) j).quasiMeasurePreserving.ae h1
    filter_upwards [haes] with ω hω
    exact propext (hev ts hts ω hω)
  · change callsLaw M (hafPick ⁻¹' A c ∩ hafPick ⁻¹' R) = 0
    rw [← Set.preimage_inter, Set.disjoint_iff_inter_eq_empty.mp (hd c), Set.preimage_empty, measure_empty]

/-- **C98** With `parallel=True` the threads draw from one generator.  For every schedule - which thread draws next may depend on everything drawn before - that lets each thread finish, the rows that `hafnian_sample_state`
returns have the same law as those of `parallel=False`: they are independent, and each has the law of one round given that the round is not rejected. -/
theorem hafnianSampleStateParallel_law (ts : List (Fin M → ℕ)) (hts : ts ≠ []) (s : List (Call M) → Fin ts.length) (hs : SchedMeas s)
    (hserved : ∀ᵐ ω ∂callsLaw M, ServedRows lib M mu cov cutoff maxPhotons ts.length s ω) :
    (callsLaw M).real (returnsRowsParallel lib M mu cov cutoff maxPhotons ts s) = (streamLaw M).real (returnsRows lib M mu cov cutoff maxPhotons ts) := by
  classical
  have hE : returnsRowsParallel lib M mu cov cutoff maxPhotons ts s = {ω | ∀ i, seen s ((fun _ => 0), 0) ω i ∈ returnsRowsCalls lib M mu cov cutoff maxPhotons [ts[i]]} :=
    Set.ext fun ω => parallelRows_iff lib M mu cov cutoff maxPhotons ts hts s ω
  obtain ⟨A, R, hA, hR, hd, hAe, hRe, hq, hev⟩ := rowsCalls_events lib hl htol M hM mu cov hph hsp cutoff hc maxPhotons ρ hρ
  have hpm : Measurable (hafPick : (ℕ → Call M) → RoundDraws M) := (hafPick_preserving M).measurable
  rw [hE, callsLaw, shared_stream (callLaw M) hs ((fun _ => 0), 0) (unitCalls M) (unitCalls_meas M) (unitCalls_compl M) (by simp [unitCalls])
    (fun i => returnsRowsCalls lib M mu cov cutoff maxPhotons [ts[i]])
    (fun i => ⋃ f, stops (M + 2) (fun t => hafPick ⁻¹' A t) (fun _ : Unit => M + 2) (fun _ => hafPick ⁻¹' R) f [ts[i]])
    (fun i => MeasurableSet.iUnion fun f => stops_measurable (fun c => hpm (hA c)) (fun _ => hpm hR) f _) (fun i ω hω => hev [ts[i]] (by simp) ω hω) ?_]
  · change ∏ i : Fin ts.length, (callsLaw M).real (returnsRowsCalls lib M mu cov cutoff maxPhotons [ts[i]]) = _
    rw [hafnianSampleState_law lib hl htol M hM mu cov hph hsp cutoff hc maxPhotons ρ hρ ts hts]
    rw [← Fin.prod_univ_getElem]
    simp only [List.length_map, List.getElem_map]
    refine Fintype.prod_equiv (finCongr (by simp)) _ _ fun i => ?_
    rw [hafnianSampleState_calls lib hl htol M hM mu cov hph hsp cutoff hc maxPhotons ρ hρ [ts[i]] (by simp),
      hafnianSampleState_law lib hl htol M hM mu cov hph hsp cutoff hc maxPhotons ρ hρ [ts[i]] (by simp), List.map_singleton, List.prod_singleton]
    rfl
  · filter_upwards [hserved] with ω hω i ζ hζ
    have := hω i ζ (fun k hk => by rw [hζ k hk, threadStream, dif_pos i.2]) ts[i]
    rw [threadStream, dif_pos i.2] at this
    exact this

/-- the same for schedules that turn to every thread again and again -/
theorem hafnianSampleStateParallel_fair (ts : List (Fin M → ℕ)) (hts : ts ≠ []) (s : List (Call M) → Fin ts.length) (hs : SchedMeas s)
    (hfair : ∀ᵐ ω ∂callsLaw M, ∀ i t, ∃ t' ≥ t, s (past ω t') = i) :
    (callsLaw M).real (returnsRowsParallel lib M mu cov cutoff maxPhotons ts s) = (streamLaw M).real (returnsRows lib M mu cov cutoff maxPhotons ts) := by
  refine hafnianSampleStateParallel_law lib hl htol M hM mu cov hph hsp cutoff hc maxPhotons ρ hρ ts hts s hs ?_
  filter_upwards [hfair] with ω hω i ζ hζ c
  simp only [threadStream, dif_pos i.2, Fin.eta] at hζ ⊢
  rw [seen_of_fair s _ ω i (hω i) ζ hζ]

end law

/-- **C98** As the cutoff grows, the rows that `hafnian_sample_state` returns with `parallel=True` become independent samples of the photon-number distribution of the state, conditioned on at most `max_photons` photons,
for every family of schedules. -/
theorem hafnianSampleStateParallel_limit (lib : Lib) (hl : GoodSampler lib) (htol : 0 ≤ lib.tol) (M : ℕ) (hM : M ≠ 0) (mu : ℕ → ℝ) (cov : ℕ → ℕ → ℝ) (hph : Physical (phase M M cov) 2)
    (hsp : ∀ ν, SympSpectrum (phase M M cov) ν → ∀ i, ν i = 1 ∨ 1 + 1e-10 ≤ ν i) (maxPhotons : ℕ) (ρ : (Fin M → ℕ) → (Fin M → ℕ) → ℂ) (hρ : IsFockMatrix M mu cov 2 ρ)
    (ts : List (Fin M → ℕ)) (hts : ts ≠ []) (hmax : ∀ t ∈ ts, ∑ i, t i ≤ maxPhotons)
    (s : ℕ → List (Call M) → Fin ts.length) (hs : ∀ cutoff, SchedMeas (s cutoff))
    (hserved : ∀ cutoff, ∀ᵐ ω ∂callsLaw M, ServedRows lib M mu cov cutoff maxPhotons ts.length (s cutoff) ω) :
    Filter.Tendsto (fun cutoff => (callsLaw M).real (returnsRowsParallel lib M mu cov cutoff maxPhotons ts (s cutoff))) Filter.atTop
      (nhds (ts.map fun t => (ρ t t).re / ∑' m : {m : Fin M → ℕ // ∑ i, m i ≤ maxPhotons}, (ρ m m).re).prod) := by
  refine (hafnianSampleState_limit lib hl htol M hM mu cov hph hsp maxPhotons ρ hρ ts hts hmax).congr' ?_
  filter_upwards [Filter.eventually_ge_atTop 1] with cutoff hc
  exact (hafnianSampleStateParallel_law lib hl htol M hM mu cov hph hsp cutoff hc maxPhotons ρ hρ ts hts (s cutoff) (hs cutoff) (hserved cutoff)).symm

/-- A concrete case: two entangled modes, and threads that take turns. -/
example (mu : ℕ → ℝ) (ts : List (Fin 2 → ℕ)) [NeZero ts.length] : ∃ lib, GoodSampler lib ∧ 0 ≤ lib.tol ∧
    (callsLaw 2).real (returnsRowsParallel lib 2 mu tmsExample 5 30 ts (roundRobin ts.length)) = (streamLaw 2).real (returnsRows lib 2 mu tmsExample 5 30 ts) := by
  obtain ⟨lib0, hl0, -⟩ := goodSampler_exists exampleLib
  have hl : GoodSampler { lib0 with tol := 1 } := ⟨hl0.1, hl0.2, hl0.3, hl0.4⟩
  have hph : Physical (phase 2 2 tmsExample) 2 := (physical_iff_spectrum _ 2 (by norm_num) _ tmsExample_spec).mpr fun _ => by norm_num
  obtain ⟨ρ, _, _, -, hρ, -⟩ := fock_gram (N := 2) mu (by norm_num : (0 : ℝ) < 2) hph
  refine ⟨_, hl, by norm_num, ?_⟩
  refine hafnianSampleStateParallel_fair _ hl (by norm_num) 2 (by norm_num) mu tmsExample hph (fun ν hν i => Or.inl ?_) 5 (by norm_num) 30 ρ hρ ts (List.ne_nil_of_length_pos (Nat.pos_of_ne_zero (NeZero.ne _)))
    (roundRobin ts.length) roundRobin_measurable (Filter.Eventually.of_forall fun ω i t => roundRobin_fair ω i t)
  have hp := sympSpectrum_unique _ _ _ hν tmsExample_spec
  have hm : ν i ∈ List.ofFn fun _ : Fin 2 => (1 : ℝ) := hp.mem_iff.mp (List.mem_ofFn.mpr ⟨i, rfl⟩)
  obtain ⟨j, hj⟩ := List.mem_ofFn.mp hm
  exact hj.symm

/-! ### Graphs -/

/-- with `parallel=True` `hafnian_sample_graph` samples the Gaussian state of the graph -/
theorem hafnianSampleGraphParallel_run (alib : Adj.Lib) (libs : ℕ → Lib) (fuel n m : ℕ) (A : CArr) (nMean : ℝ) (samples cutoff maxPhotons : ℕ) (Q : CArr) (hQ : Adj.adjToQmat alib n m A nMean = .ok Q) :
    hafnianSampleGraphParallel alib libs fuel false n m A nMean samples cutoff maxPhotons =
      hafnianSampleStateParallel libs fuel false (.arr (2 * n) (2 * n) fun i j => some (Covmat n Q 2 i j)) samples (fun _ => 0) 2 cutoff maxPhotons := by
  unfold hafnianSampleGraphParallel
  rw [if_neg (by simp), hQ]
  rfl

theorem torontonianSampleGraphParallel_run (alib : Adj.Lib) (libs : ℕ → Lib) (fuel n m : ℕ) (A : CArr) (nMean : ℝ) (samples maxPhotons fanout cutoff : ℕ) (Q : CArr) (hQ : Adj.adjToQmat alib n m A nMean = .ok Q) :
    torontonianSampleGraphParallel alib libs fuel false n m A nMean samples maxPhotons fanout cutoff =
      torontonianSampleStateParallel libs fuel false (.arr (2 * n) (2 * n) fun i j => some (Covmat n Q 2 i j)) samples (fun _ => 0) 2 maxPhotons fanout cutoff := by
  unfold torontonianSampleGraphParallel
  rw [if_neg (by simp), hQ]
  rfl

section graph
variable (alib : Adj.Lib) (hsvd : SvdContract alib.svd) (hroot : RootContract alib.rootScalar) (lib : Lib) (hl : GoodSampler lib) (htol : 0 ≤ lib.tol)
    (n : ℕ) (hn : 0 < n) (A : CArr) (hA : ∀ i < n, ∀ j < n, A i j = A j i) (nMean : ℝ) (hs : 1e-7 < (alib.svd n A).2.1 0) (h0 : 0 ≤ nMean)
    (hmax : nMean ≤ 499 ∨ nMean ≤ reach ((alib.svd n A).2.1 0)) (cutoff : ℕ) (hc : 1 ≤ cutoff) (maxPhotons : ℕ) (ts : List (Fin n → ℕ)) (hts : ts ≠ [])
    (s : List (Call n) → Fin ts.length) (hsm : SchedMeas s) (hfair : ∀ᵐ ω ∂callsLaw n, ∀ i t, ∃ t' ≥ t, s (past ω t') = i)
include hsvd hroot hl htol hn hA hs h0 hmax hc hts hsm hfair

/-- **C98** `hafnian_sample_graph` with `parallel=True`: the rows have the same law as with `parallel=False`, for every schedule that turns to every thread again and again. -/
theorem hafnianSampleGraphParallel_law :
    (callsLaw n).real {ω | ∃ fuel, hafnianSampleGraphParallel alib (fun i => withCalls lib (threadStream n s ω i)) fuel false n n A nMean ts.length cutoff maxPhotons = .ok (ts.map List.ofFn)} =
      (streamLaw n).real (returnsGraphRows alib lib n A nMean cutoff maxPhotons ts) := by
  obtain ⟨x, Q, hx, hQ, hx0, -, -, hst, -⟩ := adjToQmat_correct alib hsvd hroot n hn A hA nMean hs h0 hmax
  obtain ⟨hph, hdet, -, -⟩ := hst 2 (by norm_num)
  rw [div_self (by norm_num), one_smul] at hdet
  obtain ⟨ρ, _, _, -, hρ, -⟩ := fock_gram (N := n) (fun _ => 0) (by norm_num : (0 : ℝ) < 2) hph
  have h := hafnianSampleStateParallel_fair lib hl htol n hn.ne' (fun _ => 0) (Covmat n Q 2) hph (fun ν hν i => Or.inl (pure_spectrum _ hph hdet ν hν i)) cutoff hc maxPhotons ρ hρ ts hts s hsm hfair
  unfold returnsGraphRows
  simp only [hafnianSampleGraph_run alib _ _ n n A nMean _ cutoff maxPhotons Q hQ, hafnianSampleGraphParallel_run alib _ _ n n A nMean _ cutoff maxPhotons Q hQ]
  exact h

/-- **C98** `torontonian_sample_graph` with `parallel=True`: the rows have the same law as with `parallel=False`, for every schedule that turns to every thread again and again. -/
theorem torontonianSampleGraphParallel_law :
    (callsLaw n).real {ω | ∃ fuel, torontonianSampleGraphParallel alib (fun i => withCalls lib (threadStream n s ω i)) fuel false n n A nMean ts.length maxPhotons 1 cutoff = .ok (ts.map List.ofFn)} =
      (callsLaw n).real (returnsGraphClickRows alib lib n A nMean cutoff maxPhotons ts) := by
  obtain ⟨x, Q, hx, hQ, hx0, -, -, hst, -⟩ := adjToQmat_correct alib hsvd hroot n hn A hA nMean hs h0 hmax
  obtain ⟨hph, hdet, -, -⟩ := hst 2 (by norm_num)
  rw [div_self (by norm_num), one_smul] at hdet
  obtain ⟨ρ, _, _, -, hρ, -⟩ := fock_gram (N := n) (fun _ => 0) (by norm_num : (0 : ℝ) < 2) hph
  have h := torontonianSampleStateParallel_fair lib hl htol n hn.ne' (fun _ => 0) (Covmat n Q 2) hph (fun ν hν i => Or.inl (pure_spectrum _ hph hdet ν hν i)) cutoff hc maxPhotons ρ hρ ts hts s hsm hfair
  unfold returnsGraphClickRows
  simp only [torontonianSampleGraph_run alib _ _ n n A nMean _ maxPhotons 1 cutoff Q hQ, torontonianSampleGraphParallel_run alib _ _ n n A nMean _ maxPhotons 1 cutoff Q hQ]
  exact h

end graph

end Verif.Props
