/-
C96: the rows that `torontonian_sample_state` returns are independent samples of the click statistics, conditioned on acceptance.
-/
import Verif.Props.SampleStateLaw
import Verif.Props.TorontonianSamplerLaw
import Verif.Lemmas.Stopping

set_option linter.style.longLine false
set_option linter.unusedSectionVars false
set_option linter.unusedSimpArgs false

namespace Verif.Props
open Verif.Model Verif.Model.Symp Verif.Model.Conv Verif.Model.Means Verif.Model.Smp Verif.Model.Dec Verif.Model.Checks Verif.Spec Verif.Lemmas Verif.Lemmas.Symp
  Verif.Lemmas.FockS Verif.Lemmas.Outc Verif.Lemmas.Chain Verif.Lemmas.GInt Verif.Lemmas.Rej Matrix MeasureTheory

/-! ### The loop -/

/-- the `while` loop of the samplers, when the rounds use different numbers of draws -/
theorem collect_stops {Ω X ι : Type*} (gen : Rand (Option (List ℕ))) (L : ℕ) (l : ι → ℕ) (ω : ℕ → Ω) (A : X → Set (ℕ → Ω)) (R : ι → Set (ℕ → Ω)) (f : X → List ℕ)
    (hs : ∀ c r k, gen c = .ok (some r, k) ↔ k = c + L ∧ ∃ x, r = f x ∧ skip c ω ∈ A x) (hn : ∀ c k, gen c = .ok (none, k) ↔ ∃ m, k = c + l m ∧ skip c ω ∈ R m)
    (fuel : ℕ) : ∀ (c n : ℕ) (acc rows : List (List ℕ)), (∃ k, collect gen fuel n acc c = .ok (rows, k)) ↔
      ∃ xs : List X, xs.length = n ∧ rows = acc ++ xs.map f ∧ skip c ω ∈ stops L A l R fuel xs := by
  have hpure : ∀ (c : ℕ) (acc rows : List (List ℕ)) (fuel : ℕ), (∃ k, (pure acc : Rand (List (List ℕ))) c = .ok (rows, k)) ↔
      ∃ xs : List X, xs.length = 0 ∧ rows = acc ++ xs.map f ∧ skip c ω ∈ stops L A l R fuel xs := fun c acc rows fuel => by
    change (∃ k, Except.ok (acc, c) = Except.ok (rows, k)) ↔ _
    simp only [Except.ok.injEq, Prod.mk.injEq, exists_and_left, exists_eq', and_true, List.length_eq_zero_iff]
    constructor
    · rintro rfl
      exact ⟨[], rfl, by simp, by rw [stops_nil]; trivial⟩
    · rintro ⟨_, rfl, h, -⟩
      simpa using h.symm
  induction fuel with
  | zero =>
    intro c n acc rows
    unfold collect
    by_cases h0 : n = 0
    · subst h0
      rw [if_pos rfl]
      exact hpure c acc rows 0
    · rw [if_neg h0]
      constructor
      · rintro ⟨k, hk⟩
        exact absurd hk (by simp [raise])
      · rintro ⟨xs, hl, -, hr⟩
        cases xs with
        | nil => exact absurd hl.symm h0
        | cons x xs => exact absurd hr (Set.notMem_empty _)
  | succ fuel ih =>
    intro c n acc rows
    unfold collect
    by_cases h0 : n = 0
    · subst h0
      rw [if_pos rfl]
      exact hpure c acc rows (fuel + 1)
    rw [if_neg h0]
    have hb : ∀ k, ((do
        let r ← gen
        match r with
        | some x => collect gen fuel (n - 1) (acc ++ [x])
        | none => collect gen fuel n acc : Rand (List (List ℕ))) c = .ok (rows, k)) ↔
        ∃ r k', gen c = .ok (r, k') ∧ (match r with
        | some x => collect gen fuel (n - 1) (acc ++ [x])
        | none => collect gen fuel n acc : Rand (List (List ℕ))) k' = .ok (rows, k) := fun k => by
      change (gen c).bind (fun p => (match p.1 with
        | some x => collect gen fuel (n - 1) (acc ++ [x])
        | none => collect gen fuel n acc : Rand (List (List ℕ))) p.2) = _ ↔ _
      cases hg : gen c with
      | error e => simp [Except.bind]
      | ok p =>
        constructor
        · intro h
          exact ⟨p.1, p.2, rfl, h⟩
        · rintro ⟨r, k', h1, h2⟩
          obtain rfl : p = (r, k') := by injection h1
          exact h2
    refine (exists_congr hb).trans ?_
    constructor
    · rintro ⟨k, r, k', h1, h2⟩
      cases r with
      | some r =>
        obtain ⟨rfl, x, rfl, hx⟩ := (hs c r k').mp h1
        obtain ⟨xs, hl, rfl, hr⟩ := (ih (c + L) (n - 1) _ rows).mp ⟨k, h2⟩
        refine ⟨x :: xs, by simp; omega, by simp, Or.inl ⟨hx, ?_⟩⟩
        rw [skip_skip]
        exact hr
      | none =>
        obtain ⟨m, rfl, hx⟩ := (hn c k').mp h1
        obtain ⟨xs, hl, rfl, hr⟩ := (ih (c + l m) n _ rows).mp ⟨k, h2⟩
        refine ⟨xs, hl, rfl, ?_⟩
        cases xs with
        | nil => exact absurd hl.symm h0
        | cons x xs =>
          refine Or.inr ⟨m, hx, ?_⟩
          rw [skip_skip]
          exact hr
    · rintro ⟨xs, hl, rfl, hr⟩
      cases xs with
      | nil => exact absurd hl.symm h0
      | cons x xs =>
        simp only [List.length_cons] at hl
        rcases hr with ⟨hx, hr⟩ | ⟨m, hx, hr⟩
        · rw [skip_skip] at hr
          obtain ⟨k, hk⟩ := (ih (c + L) (n - 1) (acc ++ [f x]) _).mpr ⟨xs, by omega, rfl, hr⟩
          refine ⟨k, some (f x), c + L, (hs c _ _).mpr ⟨rfl, x, rfl, hx⟩, ?_⟩
          simpa using hk
        · rw [skip_skip] at hr
          obtain ⟨k, hk⟩ := (ih (c + l m) n acc _).mpr ⟨x :: xs, by simpa using hl, rfl, hr⟩
          exact ⟨k, none, c + l m, (hn c _).mpr ⟨m, rfl, hx⟩, hk⟩

/-! ### The random numbers of a run -/

/-- what one call to the generator can return: a vector of normal numbers, or the uniform number behind a choice -/
abbrev Call (M : ℕ) := (Fin (2 * M) → ℝ) × ℝ

/-- the library with given random numbers, call by call -/
noncomputable def withCalls (lib : Lib) {M : ℕ} (ω : ℕ → Call M) : Lib :=
  { lib with normal := fun k => seq (ω k).1, uniform := fun k => (ω k).2 }

/-- the law of one call: independent standard normal numbers, and a uniform one -/
noncomputable def callLaw (M : ℕ) : Measure (Call M) := (stdNormal (Fin (2 * M))).prod (volume.restrict (Set.Ico (0 : ℝ) 1))

instance (M : ℕ) : IsProbabilityMeasure (callLaw M) := by unfold callLaw; infer_instance

/-- the law of a run: the calls are independent -/
noncomputable def callsLaw (M : ℕ) : Measure (ℕ → Call M) := Measure.infinitePi fun _ => callLaw M

instance (M : ℕ) : IsProbabilityMeasure (callsLaw M) := by unfold callsLaw; infer_instance

/-- the numbers that a round of `generate_torontonian_sample` with one channel per mode uses -/
def pick {M : ℕ} (ω : ℕ → Call M) : RoundDraws M := ((ω 0).1, (ω 1).1, fun i => (ω (2 + 2 * M + i)).2)

theorem unfront_preserving {Ω : Type*} [MeasurableSpace Ω] (P : Measure Ω) [IsProbabilityMeasure P] :
    MeasurePreserving (fun ω : ℕ → Ω => (ω 0, skip 1 ω)) (Measure.infinitePi fun _ : ℕ => P) (P.prod (Measure.infinitePi fun _ : ℕ => P)) := by
  have hm : Measurable fun ω : ℕ → Ω => (ω 0, skip 1 ω) := (measurable_pi_apply 0).prodMk (skip_measurable 1)
  refine ⟨hm, ?_⟩
  conv_lhs => rw [← (front_preserving P).map_eq, Measure.map_map hm front_measurable]
  have : (fun ω : ℕ → Ω => (ω 0, skip 1 ω)) ∘ front = id := by
    funext p
    refine Prod.ext rfl ?_
    funext n
    change front p (1 + n) = p.2 n
    rw [Nat.add_comm, front_succ]
  rw [this, Measure.map_id]

theorem coords_preserving {Ω Ω' : Type*} [MeasurableSpace Ω] [MeasurableSpace Ω'] (P : Measure Ω) [IsProbabilityMeasure P] (Q : Measure Ω') [IsProbabilityMeasure Q] (g : Ω → Ω')
    (hg : MeasurePreserving g P Q) {m : ℕ} (e : Fin m → ℕ) (he : Function.Injective e) :
    MeasurePreserving (fun (ω : ℕ → Ω) (i : Fin m) => g (ω (e i))) (Measure.infinitePi fun _ : ℕ => P) (Measure.pi fun _ => Q) := by
  classical
  have hm : Measurable fun (ω : ℕ → Ω) (i : Fin m) => g (ω (e i)) := measurable_pi_iff.mpr fun i => hg.measurable.comp (measurable_pi_apply (e i))
  refine ⟨hm, (Measure.pi_eq fun s hs => ?_).symm⟩
  rw [Measure.map_apply hm (MeasurableSet.univ_pi hs)]
  have e1 : (fun (ω : ℕ → Ω) (i : Fin m) => g (ω (e i))) ⁻¹' Set.univ.pi s =
      Set.pi (Finset.univ.image e : Finset ℕ) fun k => if h : ∃ i, e i = k then g ⁻¹' s h.choose else Set.univ := by
    ext ω
    simp only [Set.mem_preimage, Set.mem_pi, Set.mem_univ, true_imp_iff, Finset.coe_image, Finset.coe_univ, Set.image_univ, Set.mem_range]
    constructor
    · rintro h k ⟨i, rfl⟩
      have hex : ∃ j, e j = e i := ⟨i, rfl⟩
      rw [dif_pos hex, he hex.choose_spec]
      exact h i
    · intro h i
      have := h (e i) ⟨i, rfl⟩
      have hex : ∃ j, e j = e i := ⟨i, rfl⟩
      rw [dif_pos hex, he hex.choose_spec] at this
      exact this
  rw [e1, Measure.infinitePi_pi, Finset.prod_image fun i _ j _ h => he h]
  · refine Finset.prod_congr rfl fun i _ => ?_
    have hex : ∃ j, e j = e i := ⟨i, rfl⟩
    rw [dif_pos hex, he hex.choose_spec, hg.measure_preimage (hs i).nullMeasurableSet]
  · intro k _
    split_ifs with h
    · exact hg.measurable (hs _)
    · exact MeasurableSet.univ

/-- the numbers of a round have the law of independent normal and uniform numbers -/
theorem pick_preserving (M : ℕ) : MeasurePreserving (pick : (ℕ → Call M) → RoundDraws M) (callsLaw M) (drawLaw M) := by
  have h1 : MeasurePreserving (Prod.fst : Call M → _) (callLaw M) (stdNormal (Fin (2 * M))) := measurePreserving_fst
  have h2 : MeasurePreserving (Prod.snd : Call M → _) (callLaw M) (volume.restrict (Set.Ico (0 : ℝ) 1)) := measurePreserving_snd
  have h3 := coords_preserving (callLaw M) _ _ h2 (fun i : Fin M => 2 * M + i) fun i j h => Fin.ext (by simpa using h)
  have h4 : MeasurePreserving (fun ω : ℕ → Call M => ((ω 0).1, fun i : Fin M => (skip 1 ω (2 * M + i)).2)) (callsLaw M)
      ((stdNormal (Fin (2 * M))).prod (Measure.pi fun _ => volume.restrict (Set.Ico 0 1))) := (h1.prod h3).comp (unfront_preserving (callLaw M))
  have h5 : MeasurePreserving (fun ω : ℕ → Call M => ((ω 0).1, (skip 1 ω 0).1, fun i : Fin M => (skip 1 (skip 1 ω) (2 * M + i)).2)) (callsLaw M) (drawLaw M) :=
    (h1.prod h4).comp (unfront_preserving (callLaw M))
  have e : (pick : (ℕ → Call M) → RoundDraws M) = fun ω : ℕ → Call M => ((ω 0).1, (skip 1 ω 0).1, fun i : Fin M => (skip 1 (skip 1 ω) (2 * M + i)).2) := by
    funext ω
    unfold pick
    simp only [skip]
    refine Prod.ext rfl (Prod.ext rfl (funext fun i => ?_))
    dsimp only
    rw [show 2 + 2 * M + (i : ℕ) = 1 + (1 + (2 * M + i)) by omega]
  rw [e]
  exact h5

/-! ### A rejected round -/

theorem foldlM_range_succ {σ : Type} (m k0 : ℕ) (f : σ → ℕ → Rand σ) (s0 s : σ) (k : ℕ) : (List.range (m + 1)).foldlM f s0 k0 = .ok (s, k) ↔
    ∃ s' k', (List.range m).foldlM f s0 k0 = .ok (s', k') ∧ f s' m k' = .ok (s, k) := by
  rw [List.range_succ, List.foldlM_append]
  simp only [List.foldlM_cons, List.foldlM_nil, bind_pure]
  change ((List.range m).foldlM f s0 k0).bind (fun x => f x.1 m x.2) = _ ↔ _
  generalize (List.range m).foldlM f s0 k0 = e
  rcases e with e | ⟨a, b⟩
  · simp [Except.bind]
  · simp [Except.bind]

/-- the reference sampler gives up at the first mode whose click is one too many -/
theorem bornModes_none {M : ℕ} (lib : Lib) (ρ : (Fin M → ℕ) → (Fin M → ℕ) → ℂ) (α : ℕ → ℕ → ℂ) (cutoff maxPhotons : ℕ) (inv : List ℕ) (m k0 : ℕ) (k : ℕ) :
    (List.range m).foldlM (bornMode (F := 1) lib (splitState 1 ρ) α cutoff maxPhotons inv) (some ((fun _ => 0, fun _ _ => 0), fun _ => 0)) k0 = .ok (none, k) ↔
      ∃ m' < m, ∃ n, (List.range (m' + 1)).foldlM (bornStep lib ρ (fun j => α j 0) cutoff) (fun _ => 0) k0 = .ok (n, k) ∧
        (inv.map fun j => clk (Function.update n m' 0 j)).sum ≤ maxPhotons ∧ maxPhotons < (inv.map fun j => clk (n j)).sum := by
  induction m generalizing k with
  | zero =>
    change Except.ok (some ((fun _ => 0, fun _ _ => 0), fun _ => 0), k0) = Except.ok (none, k) ↔ _
    simp
  | succ m ih =>
    have hb : ∀ (n : ℕ → ℕ) (k' : ℕ), (∀ i, m ≤ i → n i = 0) →
        (bornMode (F := 1) lib (splitState 1 ρ) α cutoff maxPhotons inv (some (codeOne m n)) m k' = .ok (none, k) ↔
          ∃ n', bornStep lib ρ (fun j => α j 0) cutoff n m k' = .ok (n', k) ∧ maxPhotons < (inv.map fun j => clk (n' j)).sum) := by
      intro n k' hn
      rw [bornMode_one lib ρ α cutoff maxPhotons inv m n hn]
      change (bornStep lib ρ (fun j => α j 0) cutoff n m k').bind (fun x => (if (inv.map fun j => clk (x.1 j)).sum > maxPhotons then pure none else pure (some (codeOne (m + 1) x.1)) :
        Rand (Option _)) x.2) = _ ↔ _
      generalize bornStep lib ρ (fun j => α j 0) cutoff n m k' = e
      rcases e with e | ⟨a, b⟩
      · simp [Except.bind]
      · change (if (inv.map fun j => clk (a j)).sum > maxPhotons then pure none else pure (some (codeOne (m + 1) a)) : Rand (Option _)) b = _ ↔ _
        by_cases hs : (inv.map fun j => clk (a j)).sum > maxPhotons
        · rw [if_pos hs]
          change Except.ok (none, b) = _ ↔ _
          simp only [Except.ok.injEq, Prod.mk.injEq, true_and]
          constructor
          · rintro rfl; exact ⟨a, ⟨rfl, rfl⟩, hs⟩
          · rintro ⟨n', ⟨-, rfl⟩, -⟩; rfl
        · rw [if_neg hs]
          change Except.ok (some (codeOne (m + 1) a), b) = _ ↔ _
          simp only [Except.ok.injEq, Prod.mk.injEq, reduceCtorEq, false_and, false_iff, not_exists, not_and]
          rintro n' ⟨rfl, -⟩
          exact hs
    have hupd : ∀ (n n' : ℕ → ℕ) (k' : ℕ), (∀ i, m ≤ i → n i = 0) → bornStep lib ρ (fun j => α j 0) cutoff n m k' = .ok (n', k) → Function.update n' m 0 = n := by
      intro n n' k' hn h
      have hp : Post (bornStep lib ρ (fun j => α j 0) cutoff n m) fun n' => ∀ j, j ≠ m → n' j = n j := by
        unfold bornStep
        refine Post.trivial.bind fun o _ => Post.pure fun j hj => Function.update_of_ne hj _ _
      funext j
      by_cases hj : j = m
      · subst hj; rw [Function.update_self, hn j le_rfl]
      · rw [Function.update_of_ne hj]
        exact hp k' n' k h j hj
    have hzero : ∀ n k', (List.range m).foldlM (bornStep lib ρ (fun j => α j 0) cutoff) (fun _ => 0) k0 = .ok (n, k') → ∀ i, m ≤ i → n i = 0 := by
      intro n k' h
      have hp : Post ((List.range m).foldlM (bornStep lib ρ (fun j => α j 0) cutoff) (fun _ => 0)) fun n => ∀ i, m ≤ i → n i = 0 := by
        refine Post.foldlRange _ (fun m (n : ℕ → ℕ) => ∀ i, m ≤ i → n i = 0) m ?_ _ fun _ _ => rfl
        intro i b _ hb
        unfold bornStep
        exact Post.trivial.bind fun o _ => Post.pure fun j hj => by
          rw [Function.update_of_ne (by omega)]; exact hb j (by omega)
      exact hp k0 n k' h
    rw [foldlM_range_succ]
    constructor
    · rintro ⟨s', k', h2, h3⟩
      cases s' with
      | none =>
        change Except.ok (none, k') = Except.ok (none, k) at h3
        simp only [Except.ok.injEq, Prod.mk.injEq, true_and] at h3
        subst h3
        obtain ⟨m', hm', h⟩ := (ih k').mp h2
        exact ⟨m', by omega, h⟩
      | some s' =>
        obtain ⟨n, h4, h5, rfl, h6⟩ := (bornModes_one lib ρ α cutoff maxPhotons inv m k0 s' k').mp h2
        obtain ⟨n', h7, h8⟩ := (hb n k' h5).mp h3
        exact ⟨m, by omega, n', (foldlM_range_succ _ _ _ _ _ _).mpr ⟨n, k', h4, h7⟩, by rw [hupd n n' k' h5 h7]; exact h6, h8⟩
    · rintro ⟨m', hm', n', h1, h2, h3⟩
      by_cases hm : m' = m
      · subst hm
        obtain ⟨n, k', h4, h7⟩ := (foldlM_range_succ _ _ _ _ _ _).mp h1
        have h5 := hzero n k' h4
        rw [hupd n n' k' h5 h7] at h2
        exact ⟨some (codeOne m' n), k', (bornModes_one lib ρ α cutoff maxPhotons inv m' k0 _ k').mpr ⟨n, h4, h5, rfl, h2⟩, (hb n k' h5).mpr ⟨n', h7, h3⟩⟩
      · exact ⟨none, k, (ih k).mpr ⟨m', by omega, n', h1, h2, h3⟩, rfl⟩

/-- the part of a pattern in the first `m` modes -/
def trunc (n : ℕ → ℕ) (m : ℕ) (i : ℕ) : ℕ := if i < m then n i else 0

/-- the random numbers for which the first `m` modes get the photon numbers `n` -/
def prefixEvent {M : ℕ} (mu : ℕ → ℝ) (W C : RArr) (ρ : (ℕ → ℝ) → (Fin M → ℕ) → (Fin M → ℕ) → ℂ) (cutoff m : ℕ) (n : ℕ → ℕ) : Set (RoundDraws M) :=
  {ω | ∀ k : Fin M, (k : ℕ) < m → ω.2.2 k ∈ drawSet (ρ (meanAt M mu W (seq ω.1))) (hetAt M (meanAt M mu W (seq ω.1)) C (seq ω.2.1)) cutoff n k}

/-- the random numbers for which the sampler gives up at mode `m` -/
def rejectAt {M : ℕ} (mu : ℕ → ℝ) (W C : RArr) (ρ : (ℕ → ℝ) → (Fin M → ℕ) → (Fin M → ℕ) → ℂ) (cutoff maxPhotons : ℕ) (inv : List ℕ) (m : Fin M) : Set (RoundDraws M) :=
  {ω | ∃ t : Fin M → ℕ, (∀ i, m < i → t i = 0) ∧ (∀ i, t i ≤ cutoff) ∧ ω ∈ prefixEvent mu W C ρ cutoff (m + 1) (ext t) ∧
    (inv.map fun j => clk (trunc (ext t) m j)).sum ≤ maxPhotons ∧ maxPhotons < (inv.map fun j => clk (ext t j)).sum}

section run
variable {M : ℕ} (lib : Lib) (htol : 0 ≤ lib.tol) (mu : ℕ → ℝ) {T W C : RArr} (ρ : (ℕ → ℝ) → (Fin M → ℕ) → (Fin M → ℕ) → ℂ) (cutoff : ℕ)
variable (hT : Physical (phase M M T) 2) (hdet : (phase M M T).det = 1) (hρ : ∀ mu, IsFockMatrix M mu T 2 (ρ mu))

include hT hdet hρ

theorem prefixEvent_meas (W C : RArr) (m : ℕ) (n : ℕ → ℕ) : MeasurableSet (prefixEvent mu W C ρ cutoff m n) := by
  have h : prefixEvent mu W C ρ cutoff m n = ⋂ k : Fin M, ⋂ (_ : (k : ℕ) < m), {ω : RoundDraws M | ω.2.2 k ∈ drawSet (ρ (meanAt M mu W (seq ω.1))) (hetAt M (meanAt M mu W (seq ω.1)) C (seq ω.2.1)) cutoff n k} := by
    ext ω
    simp only [prefixEvent, Set.mem_iInter]
    rfl
  rw [h]
  refine MeasurableSet.iInter fun k => MeasurableSet.iInter fun _ => ?_
  have hu : Measurable fun ω : RoundDraws M => ω.2.2 k := (measurable_pi_apply k).comp (measurable_snd.comp measurable_snd)
  have hS : Measurable fun ω : RoundDraws M =>
      stepTotal (ρ (meanAt M mu W (seq ω.1))) cutoff n k (hetAt M (meanAt M mu W (seq ω.1)) C (seq ω.2.1)) :=
    Finset.measurable_fun_sum _ fun j _ => density_measurable mu ρ hT hdet hρ W C _ _
  have hc : ∀ i, Measurable fun ω : RoundDraws M =>
      cumProb (ρ (meanAt M mu W (seq ω.1))) cutoff n k (hetAt M (meanAt M mu W (seq ω.1)) C (seq ω.2.1)) i := fun i =>
    Measurable.div (Finset.measurable_fun_sum _ fun j _ => density_measurable mu ρ hT hdet hρ W C _ _) hS
  have h1 : MeasurableSet {ω : RoundDraws M |
      stepTotal (ρ (meanAt M mu W (seq ω.1))) cutoff n k (hetAt M (meanAt M mu W (seq ω.1)) C (seq ω.2.1)) ≠ 0} := hS (measurableSet_singleton (0 : ℝ)).compl
  exact h1.inter ((measurableSet_le (hc _) hu).inter (measurableSet_lt hu (hc _)))

theorem rejectAt_meas (W C : RArr) (maxPhotons : ℕ) (inv : List ℕ) (m : Fin M) : MeasurableSet (rejectAt mu W C ρ cutoff maxPhotons inv m) := by
  have h : rejectAt mu W C ρ cutoff maxPhotons inv m = ⋃ t : Fin M → ℕ, ⋃ (_ : (∀ i, m < i → t i = 0) ∧ (∀ i, t i ≤ cutoff) ∧
      (inv.map fun j => clk (trunc (ext t) m j)).sum ≤ maxPhotons ∧ maxPhotons < (inv.map fun j => clk (ext t j)).sum), prefixEvent mu W C ρ cutoff (m + 1) (ext t) := by
    ext ω
    simp only [rejectAt, Set.mem_iUnion]
    constructor
    · rintro ⟨t, h1, h2, h3, h4, h5⟩; exact ⟨t, ⟨h1, h2, h4, h5⟩, h3⟩
    · rintro ⟨t, ⟨h1, h2, h4, h5⟩, h3⟩; exact ⟨t, h1, h2, h3, h4, h5⟩
  rw [h]
  exact MeasurableSet.iUnion fun t => MeasurableSet.iUnion fun _ => prefixEvent_meas mu ρ cutoff hT hdet hρ W C _ _

include htol

theorem fold_draws_upto (m : ℕ) (hm : m ≤ M) (k0 : ℕ) (ω : RoundDraws M) (hω : ω ∈ unitDraws M) (hu : ∀ k (hk : k < M), lib.uniform (k0 + k) = ω.2.2 ⟨k, hk⟩) (n : ℕ → ℕ) (k : ℕ) :
    (List.range m).foldlM (bornStep lib (ρ (meanAt M mu W (seq ω.1))) (hetAt M (meanAt M mu W (seq ω.1)) C (seq ω.2.1)) cutoff) (fun _ => 0) k0 = .ok (n, k) ↔
      k = k0 + m ∧ (∀ i, m ≤ i → n i = 0) ∧ (∀ k < m, n k ≤ cutoff) ∧ ω ∈ prefixEvent mu W C ρ cutoff m n := by
  have hnn : ∀ m n, 0 ≤ outcomeDensity (ρ (meanAt M mu W (seq ω.1))) m n (hetAt M (meanAt M mu W (seq ω.1)) C (seq ω.2.1)) := fun m n => density_nonneg ρ hT hdet hρ _ _ m n
  rw [bornFold_iff lib htol _ _ hnn cutoff m k0 n k]
  refine and_congr_right fun _ => and_congr_right fun _ => ?_
  constructor
  · intro h
    have h' : ∀ k (hk : k < m), n k ≤ cutoff ∧ ω.2.2 ⟨k, by omega⟩ ∈ drawSet (ρ (meanAt M mu W (seq ω.1))) (hetAt M (meanAt M mu W (seq ω.1)) C (seq ω.2.1)) cutoff n k := by
      intro k hk
      obtain ⟨h1, h2⟩ := h k hk
      rw [hu k (by omega), draw_iff _ _ hnn cutoff n k h1 _ (hω ⟨k, by omega⟩).1 (hω ⟨k, by omega⟩).2] at h2
      exact ⟨h2.1, h1, h2.2⟩
    exact ⟨fun k hk => (h' k hk).1, fun k hk => (h' k hk).2⟩
  · rintro ⟨h1, h2⟩ k hk
    obtain ⟨h3, h4⟩ := h2 ⟨k, by omega⟩ hk
    refine ⟨h3, ?_⟩
    rw [hu k (by omega), draw_iff _ _ hnn cutoff n k h3 _ (hω ⟨k, by omega⟩).1 (hω ⟨k, by omega⟩).2]
    exact ⟨h1 k hk, h4⟩

/-- a round of the reference sampler that starts at call `c` -/
theorem fanout_round (c : ℕ) (ω : RoundDraws M) (hω : ω ∈ unitDraws M) (hx : lib.normal c = seq ω.1) (hy : lib.normal (c + 1) = seq ω.2.1)
    (hu : ∀ k (hk : k < M), lib.uniform (c + (2 + 2 * M) + k) = ω.2.2 ⟨k, hk⟩) (inv : List ℕ) (maxPhotons : ℕ) :
    (∀ l k, bornFanout lib mu W C ρ inv 1 cutoff maxPhotons c = .ok (some l, k) ↔ k = c + (2 + 2 * M + M) ∧
      ∃ n : ℕ → ℕ, (∀ i, M ≤ i → n i = 0) ∧ (∀ k < M, n k ≤ cutoff) ∧ ω ∈ drawEvent mu W C ρ cutoff n ∧ (inv.map fun j => clk (n j)) = l ∧ l.sum ≤ maxPhotons) ∧
    ∀ k, bornFanout lib mu W C ρ inv 1 cutoff maxPhotons c = .ok (none, k) ↔ ∃ m : Fin M, k = c + (2 + 2 * M + (m + 1)) ∧ ω ∈ rejectAt mu W C ρ cutoff maxPhotons inv m := by
  have hrun : bornFanout lib mu W C ρ inv 1 cutoff maxPhotons c = (channelRows lib M 1 (hetAt M (meanAt M mu W (lib.normal c)) C (lib.normal (c + 1))) (c + 1 + 1)).bind (fun a =>
      ((List.range M).foldlM (bornMode (F := 1) lib (splitState 1 (ρ (meanAt M mu W (lib.normal c)))) a.1 cutoff maxPhotons inv) (some ((fun _ => 0, fun _ _ => 0), fun _ => 0)) a.2).bind
        fun t => .ok (t.1.map fun t => inv.map t.2, t.2)) := rfl
  rw [hrun, hx, hy, channelRows_one, show ∀ {α β : Type} (x : α) (f : α → Except PyErr β), (Except.ok x : Except PyErr α).bind f = f x from fun _ _ => rfl]
  dsimp only
  rw [show c + 1 + 1 + 2 * M = c + (2 + 2 * M) by omega]
  have hm := bornModes_one lib (ρ (meanAt M mu W (seq ω.1))) (fun j _ => if j < M then hetAt M (meanAt M mu W (seq ω.1)) C (seq ω.2.1) j else 0) cutoff maxPhotons inv M (c + (2 + 2 * M))
  have hn := bornModes_none lib (ρ (meanAt M mu W (seq ω.1))) (fun j _ => if j < M then hetAt M (meanAt M mu W (seq ω.1)) C (seq ω.2.1) j else 0) cutoff maxPhotons inv M (c + (2 + 2 * M))
  have hcg := bornFold_congr lib (ρ (meanAt M mu W (seq ω.1))) (fun j => if j < M then hetAt M (meanAt M mu W (seq ω.1)) C (seq ω.2.1) j else 0)
    (hetAt M (meanAt M mu W (seq ω.1)) C (seq ω.2.1)) (fun j hj => if_pos hj) cutoff
  have hf := fold_draws_at lib htol mu ρ cutoff hT hdet hρ (c + (2 + 2 * M)) ω hω hu (W := W) (C := C)
  generalize (List.range M).foldlM (bornMode (F := 1) lib (splitState 1 (ρ (meanAt M mu W (seq ω.1)))) (fun j _ => if j < M then hetAt M (meanAt M mu W (seq ω.1)) C (seq ω.2.1) j else 0) cutoff maxPhotons inv)
    (some ((fun _ => 0, fun _ _ => 0), fun _ => 0)) (c + (2 + 2 * M)) = e at hm hn ⊢
  have hbs : ∀ l k, e.bind (fun t => (.ok (t.1.map fun t => inv.map t.2, t.2) : Except PyErr (Option (List ℕ) × ℕ))) = .ok (some l, k) ↔ ∃ t, e = .ok (some t, k) ∧ inv.map t.2 = l := by
    intro l k
    rcases e with e | ⟨t, k'⟩
    · simp [Except.bind]
    · cases t <;> simp [Except.bind, and_comm]
  have hbn : ∀ k, e.bind (fun t => (.ok (t.1.map fun t => inv.map t.2, t.2) : Except PyErr (Option (List ℕ) × ℕ))) = .ok (none, k) ↔ e = .ok (none, k) := by
    intro k
    rcases e with e | ⟨t, k'⟩
    · simp [Except.bind]
    · cases t <;> simp [Except.bind]
  refine ⟨fun l k => ?_, fun k => ?_⟩
  · rw [hbs]
    constructor
    · rintro ⟨t, h, rfl⟩
      obtain ⟨n, h1, h2, rfl, h4⟩ := (hm t k).mp h
      rw [hcg] at h1
      obtain ⟨h0, -, h5, h6⟩ := (hf n k).mp h1
      exact ⟨by rw [h0]; omega, n, h2, h5, h6, rfl, h4⟩
    · rintro ⟨rfl, n, h1, h2, h3, rfl, h4⟩
      refine ⟨codeOne M n, (hm _ _).mpr ⟨n, ?_, h1, rfl, h4⟩, rfl⟩
      rw [hcg]
      exact (hf n _).mpr ⟨by omega, h1, h2, h3⟩
  · rw [hbn, hn]
    have hlast : ∀ (m : ℕ) (n : ℕ → ℕ), (∀ i, m + 1 ≤ i → n i = 0) → Function.update n m 0 = trunc n m := by
      intro m n h
      funext i
      unfold trunc
      by_cases hi : i = m
      · subst hi; simp
      · rw [Function.update_of_ne hi]
        split_ifs with h'
        · rfl
        · exact h i (by omega)
    constructor
    · rintro ⟨m, hmM, n, h1, h2, h3⟩
      rw [hcg] at h1
      obtain ⟨h0, h4, h5, h6⟩ := (fold_draws_upto lib htol mu ρ cutoff hT hdet hρ (m + 1) hmM (c + (2 + 2 * M)) ω hω hu (W := W) (C := C) n k).mp h1
      have hext : ext (fun i : Fin M => n i) = n := by
        funext i
        unfold ext
        split_ifs with h
        · rfl
        · exact (h4 i (by omega)).symm
      rw [hlast m n h4] at h2
      refine ⟨⟨m, hmM⟩, by rw [h0]; simp only; omega, fun i => n i, fun i hi => h4 i hi, fun i => ?_, ?_, ?_, ?_⟩
      · by_cases hi : (i : ℕ) < m + 1
        · exact h5 i hi
        · change n i ≤ cutoff
          rw [h4 i (by omega)]; omega
      · rw [hext]; exact h6
      · rw [hext]; exact h2
      · rw [hext]; exact h3
    · rintro ⟨m, rfl, t, h1, h2, h3, h4, h5⟩
      have h6 : ∀ i, (m : ℕ) + 1 ≤ i → ext t i = 0 := by
        intro i hi
        unfold ext
        split_ifs with h
        · exact h1 ⟨i, h⟩ (by rw [Fin.lt_def]; simp only; omega)
        · rfl
      refine ⟨m, m.2, ext t, ?_, ?_, h5⟩
      · rw [hcg]
        refine (fold_draws_upto lib htol mu ρ cutoff hT hdet hρ (m + 1) m.2 (c + (2 + 2 * M)) ω hω hu (W := W) (C := C) _ _).mpr ⟨by omega, h6, fun k hk => ?_, h3⟩
        unfold ext
        split_ifs
        · exact h2 _
        · omega
      · rw [hlast m _ h6]; exact h4

end run

/-! ### The events of a round -/

theorem drawSet_congr {M : ℕ} (ρ : (Fin M → ℕ) → (Fin M → ℕ) → ℂ) (α : ℕ → ℂ) (cutoff : ℕ) (n n' : ℕ → ℕ) (k : ℕ) (h : ∀ i ≤ k, n i = n' i) :
    drawSet ρ α cutoff n k = drawSet ρ α cutoff n' k := by
  have h1 : ∀ j, outcomeDensity ρ (k + 1) (Function.update n k j) α = outcomeDensity ρ (k + 1) (Function.update n' k j) α := fun j =>
    outcomeDensity_congr ρ _ _ _ _ _ (fun i hi => by
      by_cases hk : i = k
      · subst hk; simp
      · rw [Function.update_of_ne hk, Function.update_of_ne hk, h i (by omega)]) fun _ _ _ => rfl
  have h2 : stepTotal ρ cutoff n k α = stepTotal ρ cutoff n' k α := stepTotal_congr ρ α cutoff n n' k fun i hi => h i hi.le
  have h3 : ∀ i, cumProb ρ cutoff n k α i = cumProb ρ cutoff n' k α i := fun i => by
    unfold cumProb
    rw [h2, Finset.sum_congr rfl fun j _ => h1 j]
  unfold drawSet
  rw [h2, h3, h3, h k le_rfl]

/-- a pattern with too many clicks is given up at some mode -/
theorem too_many_clicks {M : ℕ} (mu : ℕ → ℝ) {W C : RArr} (ρ : (ℕ → ℝ) → (Fin M → ℕ) → (Fin M → ℕ) → ℂ) (cutoff maxPhotons : ℕ) (inv : List ℕ) (ω : RoundDraws M) (n : ℕ → ℕ)
    (h1 : ∀ i, M ≤ i → n i = 0) (h2 : ∀ k < M, n k ≤ cutoff) (h3 : ω ∈ drawEvent mu W C ρ cutoff n) (h4 : maxPhotons < (inv.map fun j => clk (n j)).sum) :
    ∃ m : Fin M, ω ∈ rejectAt mu W C ρ cutoff maxPhotons inv m := by
  classical
  have hM : maxPhotons < (inv.map fun j => clk (trunc n M j)).sum := by
    have : trunc n M = n := by
      funext i
      unfold trunc
      split_ifs with h
      · rfl
      · exact (h1 i (by omega)).symm
    rw [this]; exact h4
  have hex : ∃ m, maxPhotons < (inv.map fun j => clk (trunc n m j)).sum := ⟨M, hM⟩
  obtain ⟨m, hm⟩ : ∃ m, Nat.find hex = m + 1 := by
    refine Nat.exists_eq_succ_of_ne_zero fun h0 => ?_
    have := Nat.find_spec hex
    rw [h0] at this
    simp [trunc, clk] at this
  have hle : m + 1 ≤ M := by rw [← hm]; exact Nat.find_min' hex hM
  have hs : maxPhotons < (inv.map fun j => clk (trunc n (m + 1) j)).sum := by
    have := Nat.find_spec hex
    rwa [hm] at this
  have hn : (inv.map fun j => clk (trunc n m j)).sum ≤ maxPhotons := by
    have := Nat.find_min hex (m := m) (by omega)
    omega
  have hext : ext (fun i : Fin M => trunc n (m + 1) i) = trunc n (m + 1) := by
    funext i
    unfold ext
    split_ifs with h
    · rfl
    · unfold trunc
      rw [if_neg (by omega)]
  have htr : trunc (trunc n (m + 1)) m = trunc n m := by
    funext i
    unfold trunc
    by_cases h : i < m
    · rw [if_pos h, if_pos h, if_pos (by omega)]
    · rw [if_neg h, if_neg h]
  refine ⟨⟨m, hle⟩, fun i => trunc n (m + 1) i, fun i hi => ?_, fun i => ?_, ?_, ?_, ?_⟩
  · change trunc n (m + 1) i = 0
    unfold trunc
    rw [Fin.lt_def] at hi
    simp only at hi
    rw [if_neg (by omega)]
  · change trunc n (m + 1) i ≤ cutoff
    unfold trunc
    split_ifs
    · exact h2 i i.2
    · omega
  · rw [hext]
    intro k hk
    simp only at hk
    rw [drawSet_congr _ _ cutoff (trunc n (m + 1)) n k fun i hi => by unfold trunc; rw [if_pos (by omega)]]
    exact h3 k
  · rw [hext]
    simp only [htr]
    exact hn
  · rw [hext]
    exact hs

/-- the random numbers for which `generate_torontonian_sample` (ħ = 2, one channel per mode) gives up -/
def rejectsClicks (lib : Lib) (s : GState ℝ) (M cutoff maxPhotons : ℕ) : Set (RoundDraws M) :=
  {ω | ∃ k, generateTorontonianSample (withClickDraws lib ω.1 ω.2.1 ω.2.2) s 2 maxPhotons 1 cutoff 0 = .ok (none, k)}

/-- the probability of at most `maxPhotons` clicks -/
noncomputable def fewClicks {M : ℕ} (ρ : (Fin M → ℕ) → (Fin M → ℕ) → ℂ) (maxPhotons : ℕ) : ℝ := ∑' t : {t : Fin M → ℕ // ∑ i, clk (t i) ≤ maxPhotons}, (ρ t t).re

/-- the events of one round: `A c` that the click pattern `c` is returned, `R m` that the sampler gives up at mode `m` -/
theorem click_round_events (lib : Lib) (hl : GoodSampler lib) (htol : 0 ≤ lib.tol) (s : GState ℝ) (M : ℕ) (hM : M ≠ 0) (hs : s.len = 2 * M) (hph : Physical (phase M M s.cov) 2)
    (hsp : ∀ ν, SympSpectrum (phase M M s.cov) ν → ∀ i, ν i = 1 ∨ 1 + 1e-10 ≤ ν i) (cutoff : ℕ) (hc : 1 ≤ cutoff) (maxPhotons : ℕ)
    (ρ : (Fin M → ℕ) → (Fin M → ℕ) → ℂ) (hρ : IsFockMatrix M s.mu s.cov 2 ρ) :
    ∃ (A : (Fin M → ℕ) → Set (RoundDraws M)) (R : Fin M → Set (RoundDraws M)), (∀ c, MeasurableSet (A c)) ∧ (∀ m, MeasurableSet (R m)) ∧
      (∀ m (ω ω' : RoundDraws M), ω.1 = ω'.1 → ω.2.1 = ω'.2.1 → (∀ k ≤ m, ω.2.2 k = ω'.2.2 k) → ω ∈ R m → ω' ∈ R m) ∧
      (∀ (nf : ℕ → ℕ → ℝ) (uf : ℕ → ℝ) (c : ℕ) (ω : RoundDraws M), ω ∈ unitDraws M → nf c = seq ω.1 → nf (c + 1) = seq ω.2.1 → (∀ k (hk : k < M), uf (c + (2 + 2 * M) + k) = ω.2.2 ⟨k, hk⟩) →
        (∀ l k, generateTorontonianSample { lib with normal := nf, uniform := uf } s 2 maxPhotons 1 cutoff c = .ok (some l, k) ↔ k = c + (2 + 2 * M + M) ∧ ∃ x, l = List.ofFn x ∧ ω ∈ A x) ∧
        ∀ k, generateTorontonianSample { lib with normal := nf, uniform := uf } s 2 maxPhotons 1 cutoff c = .ok (none, k) ↔ ∃ m : Fin M, k = c + (2 + 2 * M + (m + 1)) ∧ ω ∈ R m) ∧
      |1 - (drawLaw M).real (⋃ m, R m) - fewClicks ρ maxPhotons| ≤ beyond ρ cutoff ∧ (drawLaw M).real (⋃ m, R m) < 1 := by
  classical
  obtain ⟨order, inv, means, r, T, W, C, -, hperm, -, hilen, hip, hinv, hred, hT, hdet, hW, hC, hrun⟩ := generateTorontonianSample_born_all lib hl s M hM hs hph hsp
  have hex : ∀ mu, ∃ ρ, IsFockMatrix M mu T 2 ρ := fun mu => by
    obtain ⟨ρ, _, _, -, h, -⟩ := fock_gram (N := M) mu (by norm_num : (0 : ℝ) < 2) hT
    exact ⟨ρ, h⟩
  choose ρf hρf using hex
  obtain ⟨E, hm, hd, hemp, hlow, hE⟩ := events_setup lib htol s r M order inv hperm hilen hip hinv hred hT hdet hW hC ρf hρf cutoff ρ hρ
  set G : Finset (Fin M → ℕ) := Fintype.piFinset fun _ => Finset.range (cutoff + 1) with hG
  have hGm : ∀ m, m ∈ G ↔ ∀ i, m i ≤ cutoff := fun m => by
    simp only [hG, Fintype.mem_piFinset, Finset.mem_range, Nat.lt_succ_iff]
  have hnn : ∀ m, 0 ≤ (ρ m m).re := fun m => ((fock_isPsd (by norm_num) hph hρ).diag m).1
  have hclk : ∀ (n : ℕ → ℕ) (t : Fin M → ℕ), inv.map n = List.ofFn t → (inv.map fun j => clk (n j)) = List.ofFn fun i => clk (t i) := by
    intro n t h
    rw [show (inv.map fun j => clk (n j)) = (inv.map n).map clk by rw [List.map_map]; rfl, h, List.map_ofFn]
    rfl
  have hmapn : ∀ n : ℕ → ℕ, inv.map n = List.ofFn fun i : Fin M => n (inv.getD i 0) := by
    intro n
    apply List.ext_getElem
    · simp [hilen]
    · intro i h8 h9
      rw [List.getElem_map, List.getElem_ofFn]
      simp only [List.length_map] at h8
      rw [List.getD_eq_getElem _ _ h8]
  let A : (Fin M → ℕ) → Set (RoundDraws M) := fun c => if ∑ i, c i ≤ maxPhotons then ⋃ t ∈ G.filter (fun t => ∀ i, clk (t i) = c i), E t else ∅
  let R : Fin M → Set (RoundDraws M) := fun m => rejectAt r.mu W C ρf cutoff maxPhotons inv m
  have hAm : ∀ c, MeasurableSet (A c) := fun c => by
    dsimp only [A]
    split_ifs
    · exact Finset.measurableSet_biUnion _ fun t _ => hm t
    · exact MeasurableSet.empty
  have hRm : ∀ m, MeasurableSet (R m) := fun m => rejectAt_meas r.mu ρf cutoff hT hdet hρf W C maxPhotons inv m
  have hA : ∀ ω ∈ unitDraws M, ∀ l : List ℕ, (∃ n : ℕ → ℕ, (∀ i, M ≤ i → n i = 0) ∧ (∀ k < M, n k ≤ cutoff) ∧ ω ∈ drawEvent r.mu W C ρf cutoff n ∧ (inv.map fun j => clk (n j)) = l ∧ l.sum ≤ maxPhotons) ↔
      ∃ x, l = List.ofFn x ∧ ω ∈ A x := by
    intro ω hω l
    constructor
    · rintro ⟨n, h2, h3, h4, rfl, h6⟩
      have h8 := (hE ω hω fun i : Fin M => n (inv.getD i 0)).mpr ⟨n, h2, h3, h4, hmapn n⟩
      rw [hclk n _ (hmapn n)] at h6 ⊢
      refine ⟨_, rfl, ?_⟩
      rw [List.sum_ofFn] at h6
      dsimp only [A]
      rw [if_pos h6]
      refine Set.mem_biUnion (Finset.mem_coe.mpr (Finset.mem_filter.mpr ⟨?_, fun i => rfl⟩)) h8
      rw [hGm]
      intro i
      by_cases hi : inv.getD i 0 < M
      · exact h3 _ hi
      · rw [h2 _ (by omega)]; omega
    · rintro ⟨x, rfl, hx⟩
      dsimp only [A] at hx
      by_cases hxs : ∑ i, x i ≤ maxPhotons
      · rw [if_pos hxs] at hx
        obtain ⟨t, h1, h2⟩ := Set.mem_iUnion₂.mp hx
        obtain ⟨h3, h4⟩ := Finset.mem_filter.mp h1
        obtain ⟨n, h5, h6, h7, h8⟩ := (hE ω hω t).mp h2
        refine ⟨n, h5, h6, h7, ?_, by rw [List.sum_ofFn]; exact hxs⟩
        rw [hclk n t h8]
        congr 1
        funext i
        exact h4 i
      · rw [if_neg hxs] at hx
        exact absurd hx (Set.notMem_empty _)
  have hgen : ∀ (nf : ℕ → ℕ → ℝ) (uf : ℕ → ℝ) (c : ℕ) (ω : RoundDraws M), ω ∈ unitDraws M → nf c = seq ω.1 → nf (c + 1) = seq ω.2.1 → (∀ k (hk : k < M), uf (c + (2 + 2 * M) + k) = ω.2.2 ⟨k, hk⟩) →
        (∀ l k, generateTorontonianSample { lib with normal := nf, uniform := uf } s 2 maxPhotons 1 cutoff c = .ok (some l, k) ↔ k = c + (2 + 2 * M + M) ∧ ∃ x, l = List.ofFn x ∧ ω ∈ A x) ∧
        ∀ k, generateTorontonianSample { lib with normal := nf, uniform := uf } s 2 maxPhotons 1 cutoff c = .ok (none, k) ↔ ∃ m : Fin M, k = c + (2 + 2 * M + (m + 1)) ∧ ω ∈ R m := by
    intro nf uf c ω hω hx hy hu
    rw [hrun 1 one_ne_zero cutoff hc maxPhotons nf uf ρf hρf]
    obtain ⟨h1, h2⟩ := fanout_round { lib with normal := nf, uniform := uf } htol r.mu ρf cutoff hT hdet hρf c ω hω hx hy hu inv maxPhotons (W := W) (C := C)
    exact ⟨fun l k => (h1 l k).trans (and_congr_right fun _ => hA ω hω l), h2⟩
  refine ⟨A, R, hAm, hRm, ?_, hgen, ?_⟩
  · rintro m ⟨x, y, u⟩ ⟨x', y', u'⟩ hx hy hu ⟨t, h1, h2, h3, h4, h5⟩
    simp only at hx hy hu
    subst hx hy
    refine ⟨t, h1, h2, fun k hk => ?_, h4, h5⟩
    have h6 := h3 k hk
    have h7 := hu k (by rw [Fin.le_def]; omega)
    simp only at h6 ⊢
    rw [← h7]
    exact h6
  · have hdisj : ∀ ω ∈ unitDraws M, ∀ c m, ω ∈ A c → ω ∈ R m → False := by
      intro ω hω c m h1 h2
      obtain ⟨h3, h4⟩ := hgen (withClickDraws lib ω.1 ω.2.1 ω.2.2).normal (withClickDraws lib ω.1 ω.2.1 ω.2.2).uniform 0 ω hω (by simp [withClickDraws]) (by simp [withClickDraws])
        (fun k hk => by simp [withClickDraws, seq, hk])
      have h5 := (h3 (List.ofFn c) _).mpr ⟨rfl, c, rfl, h1⟩
      have h6 := (h4 _).mpr ⟨m, rfl, h2⟩
      rw [h5] at h6
      simp at h6
    have hlow' : ∀ m ∈ G, (ρ m m).re ≤ (drawLaw M).real (E m) := fun m hmG => by
      have h1 := hlow m ((hGm m).mp hmG)
      rw [ENNReal.ofReal_le_iff_le_toReal (measure_ne_top _ _)] at h1
      exact h1
    have hae : ∀ᵐ ω ∂drawLaw M, ω ∈ unitDraws M := by
      rw [ae_iff]
      exact unitDraws_compl M
    have hRu : MeasurableSet (⋃ m, R m) := MeasurableSet.iUnion hRm
    set SG := ∑ t ∈ G.filter (fun t => ∑ i, clk (t i) ≤ maxPhotons), (ρ t t).re with hSG
    set SB := ∑ t ∈ G.filter (fun t => ¬ ∑ i, clk (t i) ≤ maxPhotons), (ρ t t).re with hSB
    have hup : (drawLaw M).real (⋃ m, R m) ≤ 1 - SG := by
      have h1 : (drawLaw M).real ((⋃ m, R m) ∪ ⋃ t ∈ G.filter (fun t => ∑ i, clk (t i) ≤ maxPhotons), E t) ≤ 1 := measureReal_le_one
      rw [measureReal_union₀ (Finset.measurableSet_biUnion _ fun t _ => hm t).nullMeasurableSet ?_ (measure_ne_top _ _) (measure_ne_top _ _), measureReal_biUnion_finset (fun m _ m' _ hmm => hd m m' hmm) fun m _ => hm m] at h1
      · have h2 : SG ≤ ∑ t ∈ G.filter (fun t => ∑ i, clk (t i) ≤ maxPhotons), (drawLaw M).real (E t) := Finset.sum_le_sum fun t ht => hlow' t (Finset.mem_filter.mp ht).1
        linarith
      · refine measure_mono_null (fun ω hω => ?_) (unitDraws_compl M)
        obtain ⟨h1, h2⟩ := hω
        intro hu
        obtain ⟨m, h3⟩ := Set.mem_iUnion.mp h1
        obtain ⟨t, h4, h5⟩ := Set.mem_iUnion₂.mp h2
        obtain ⟨h6, h7⟩ := Finset.mem_filter.mp h4
        refine hdisj ω hu (fun i => clk (t i)) m ?_ h3
        dsimp only [A]
        rw [if_pos h7]
        exact Set.mem_biUnion (Finset.mem_coe.mpr (Finset.mem_filter.mpr ⟨h6, fun i => rfl⟩)) h5
    have hdown : SB ≤ (drawLaw M).real (⋃ m, R m) := by
      have h2 : SB ≤ ∑ t ∈ G.filter (fun t => ¬ ∑ i, clk (t i) ≤ maxPhotons), (drawLaw M).real (E t) := Finset.sum_le_sum fun t ht => hlow' t (Finset.mem_filter.mp ht).1
      rw [← measureReal_biUnion_finset (fun m _ m' _ hmm => hd m m' hmm) fun m _ => hm m] at h2
      refine h2.trans ?_
      rw [measureReal_def, measureReal_def]
      refine ENNReal.toReal_mono (measure_ne_top _ _) (measure_mono_ae ?_)
      filter_upwards [hae] with ω hω h3
      obtain ⟨t, h4, h5⟩ := Set.mem_iUnion₂.mp h3
      obtain ⟨h6, h7⟩ := Finset.mem_filter.mp h4
      obtain ⟨n, h8, h9, h10, h11⟩ := (hE ω hω t).mp h5
      obtain ⟨m, hm⟩ := too_many_clicks r.mu ρf cutoff maxPhotons inv ω n h8 h9 h10 (by rw [hclk n t h11, List.sum_ofFn]; omega)
      exact Set.mem_iUnion.mpr ⟨m, hm⟩
    have h6 : HasSum (fun m => (ρ m m).re) 1 := by
      have := Complex.hasSum_re (fockMatrix_trace (by norm_num) hph hρ)
      simpa using this
    have h7 := h6.summable.sum_add_tsum_subtype_compl G
    rw [h6.tsum_eq] at h7
    have h8 : beyond ρ cutoff = ∑' m : {m // m ∉ G}, (ρ m m).re := by
      refine (Equiv.subtypeEquivRight fun m => ?_).tsum_eq (fun m : {m // m ∉ G} => (ρ m m).re)
      rw [hGm]
      push Not
      rfl
    have h17 := Finset.sum_filter_add_sum_filter_not G (fun t => ∑ i, clk (t i) ≤ maxPhotons) fun t => (ρ t t).re
    rw [← hSG, ← hSB] at h17
    have h9 : fewClicks ρ maxPhotons = ∑' t, if ∑ i, clk (t i) ≤ maxPhotons then (ρ t t).re else 0 := by
      have := tsum_subtype {t : Fin M → ℕ | ∑ i, clk (t i) ≤ maxPhotons} fun t => (ρ t t).re
      have h10 : (∑' t, {t : Fin M → ℕ | ∑ i, clk (t i) ≤ maxPhotons}.indicator (fun t => (ρ t t).re) t) = ∑' t, if ∑ i, clk (t i) ≤ maxPhotons then (ρ t t).re else 0 :=
        tsum_congr fun t => by
          by_cases h : ∑ i, clk (t i) ≤ maxPhotons
          · rw [if_pos h]; exact Set.indicator_of_mem (s := {t : Fin M → ℕ | ∑ i, clk (t i) ≤ maxPhotons}) h _
          · rw [if_neg h]; exact Set.indicator_of_notMem (s := {t : Fin M → ℕ | ∑ i, clk (t i) ≤ maxPhotons}) h _
      rw [← h10, ← this]
      rfl
    have hsum2 : Summable fun t : Fin M → ℕ => if ∑ i, clk (t i) ≤ maxPhotons then (ρ t t).re else 0 :=
      Summable.of_nonneg_of_le (fun t => by split_ifs <;> [exact hnn t; exact le_rfl]) (fun t => by split_ifs <;> [exact le_rfl; exact hnn t]) h6.summable
    have h11 := hsum2.sum_add_tsum_subtype_compl G
    rw [← h9, ← Finset.sum_filter, ← hSG] at h11
    have h12 : 0 ≤ ∑' t : {t // t ∉ G}, (if ∑ i, clk (t.1 i) ≤ maxPhotons then (ρ t t).re else 0) := tsum_nonneg fun t => by split_ifs <;> [exact hnn t; exact le_rfl]
    have h13 : ∑' t : {t // t ∉ G}, (if ∑ i, clk (t.1 i) ≤ maxPhotons then (ρ t t).re else 0) ≤ beyond ρ cutoff := by
      rw [h8]
      exact (hsum2.subtype _).tsum_le_tsum (fun t => by split_ifs <;> [exact le_rfl; exact hnn t]) (h6.summable.subtype _)
    have hvac : 0 < SG := by
      obtain ⟨h1, h2⟩ := fockMatrix_vacuum (by norm_num) hph hρ
      have h0 : (0 : Fin M → ℕ) ∈ G.filter (fun t => ∑ i, clk (t i) ≤ maxPhotons) := Finset.mem_filter.mpr ⟨(hGm 0).mpr fun i => Nat.zero_le _, by simp [clk]⟩
      refine lt_of_lt_of_le ?_ (Finset.single_le_sum (fun t _ => hnn t) h0)
      rw [h1, Complex.ofReal_re]
      exact h2
    rw [← h8] at h7
    refine ⟨?_, by linarith⟩
    rw [abs_le]
    constructor <;> linarith

/-! ### The law of the rows -/

section law
variable (lib : Lib) (hl : GoodSampler lib) (htol : 0 ≤ lib.tol) (M : ℕ) (hM : M ≠ 0) (mu : ℕ → ℝ) (cov : ℕ → ℕ → ℝ) (hph : Physical (phase M M cov) 2)
  (hsp : ∀ ν, SympSpectrum (phase M M cov) ν → ∀ i, ν i = 1 ∨ 1 + 1e-10 ≤ ν i) (cutoff : ℕ) (hc : 1 ≤ cutoff) (maxPhotons : ℕ)
  (ρ : (Fin M → ℕ) → (Fin M → ℕ) → ℂ) (hρ : IsFockMatrix M mu cov 2 ρ)

/-- the random numbers for which `torontonian_sample_state` (ħ = 2, `fanout = 1`) ends and returns the rows `cs` -/
def returnsClickRows (cs : List (Fin M → ℕ)) : Set (ℕ → Call M) :=
  {ω | ∃ fuel k, torontonianSampleState (withCalls lib ω) fuel (.arr (2 * M) (2 * M) fun i j => some (cov i j)) cs.length mu 2 maxPhotons 1 cutoff 0 = .ok (cs.map List.ofFn, k)}

include hl htol hM hph hsp hc hρ

theorem click_law_core (cs : List (Fin M → ℕ)) (hcs : cs ≠ []) :
    (callsLaw M).real (returnsClickRows lib M mu cov cutoff maxPhotons cs) =
      (cs.map fun c => (drawLaw M).real (returnsClicks lib ⟨2 * M, mu, cov⟩ M cutoff maxPhotons c) / (1 - (drawLaw M).real (rejectsClicks lib ⟨2 * M, mu, cov⟩ M cutoff maxPhotons))).prod ∧
    |1 - (drawLaw M).real (rejectsClicks lib ⟨2 * M, mu, cov⟩ M cutoff maxPhotons) - fewClicks ρ maxPhotons| ≤ beyond ρ cutoff ∧
    (drawLaw M).real (rejectsClicks lib ⟨2 * M, mu, cov⟩ M cutoff maxPhotons) < 1 := by
  classical
  obtain ⟨A, R, hA, hR, hRd, hgen, hb, hq⟩ := click_round_events lib hl htol ⟨2 * M, mu, cov⟩ M hM rfl hph hsp cutoff hc maxPhotons ρ hρ
  have hae : ∀ᵐ ω ∂drawLaw M, ω ∈ unitDraws M := by
    rw [ae_iff]
    exact unitDraws_compl M
  have hone : ∀ ω ∈ unitDraws M, (∀ l k, generateTorontonianSample (withClickDraws lib ω.1 ω.2.1 ω.2.2) ⟨2 * M, mu, cov⟩ 2 maxPhotons 1 cutoff 0 = .ok (some l, k) ↔ k = 0 + (2 + 2 * M + M) ∧ ∃ x, l = List.ofFn x ∧ ω ∈ A x) ∧
      ∀ k, generateTorontonianSample (withClickDraws lib ω.1 ω.2.1 ω.2.2) ⟨2 * M, mu, cov⟩ 2 maxPhotons 1 cutoff 0 = .ok (none, k) ↔ ∃ m : Fin M, k = 0 + (2 + 2 * M + (m + 1)) ∧ ω ∈ R m := fun ω hω =>
    hgen (withClickDraws lib ω.1 ω.2.1 ω.2.2).normal (withClickDraws lib ω.1 ω.2.1 ω.2.2).uniform 0 ω hω (by simp [withClickDraws]) (by simp [withClickDraws])
      (fun k hk => by simp [withClickDraws, seq, hk])
  have hAe : ∀ c, (drawLaw M).real (returnsClicks lib ⟨2 * M, mu, cov⟩ M cutoff maxPhotons c) = (drawLaw M).real (A c) := fun c => measureReal_congr (by
    filter_upwards [hae] with ω hω
    refine propext ?_
    change (∃ k, _ = _) ↔ ω ∈ A c
    simp only [(hone ω hω).1]
    constructor
    · rintro ⟨k, -, x, h1, h2⟩
      rw [List.ofFn_injective h1]
      exact h2
    · intro h
      exact ⟨_, rfl, c, rfl, h⟩)
  have hRe : (drawLaw M).real (rejectsClicks lib ⟨2 * M, mu, cov⟩ M cutoff maxPhotons) = (drawLaw M).real (⋃ m, R m) := measureReal_congr (by
    filter_upwards [hae] with ω hω
    refine propext ?_
    change (∃ k, _ = _) ↔ ω ∈ ⋃ m, R m
    simp only [(hone ω hω).2, Set.mem_iUnion]
    constructor
    · rintro ⟨k, m, -, h⟩; exact ⟨m, h⟩
    · rintro ⟨m, h⟩; exact ⟨_, m, rfl, h⟩)
  have hpm : Measurable (pick : (ℕ → Call M) → RoundDraws M) := (pick_preserving M).measurable
  have hpA : ∀ c, (callsLaw M).real (pick ⁻¹' A c) = (drawLaw M).real (A c) := fun c => by
    rw [measureReal_def, measureReal_def, (pick_preserving M).measure_preimage (hA c).nullMeasurableSet]
  have hpR : (callsLaw M).real (⋃ m, pick ⁻¹' R m) = (drawLaw M).real (⋃ m, R m) := by
    rw [← Set.preimage_iUnion, measureReal_def, measureReal_def, (pick_preserving M).measure_preimage (MeasurableSet.iUnion hR).nullMeasurableSet]
  have hnull : ∀ S : Set (RoundDraws M), S ⊆ (unitDraws M)ᶜ → callsLaw M (pick ⁻¹' S) = 0 := fun S hS => by
    refine measure_mono_null (Set.preimage_mono hS) ?_
    rw [(pick_preserving M).measure_preimage (unitDraws_meas M).compl.nullMeasurableSet]
    exact unitDraws_compl M
  refine ⟨?_, by rw [hRe]; exact hb, by rw [hRe]; exact hq⟩
  simp only [hAe, hRe]
  have hlaw := stops_law (callLaw M) (L := 2 + 2 * M + M) (A := fun c => pick ⁻¹' A c) (l := fun m : Fin M => 2 + 2 * M + (m + 1)) (R := fun m => pick ⁻¹' R m)
    (fun c => hpm (hA c)) (fun m => hpm (hR m)) (fun c ω ω' h hω => ?_) (fun m ω ω' h hω => ?_) (fun c m => ?_) (fun m m' hmm => ?_) (by rw [show (Measure.infinitePi fun _ : ℕ => callLaw M) = callsLaw M from rfl, hpR]; exact hq) cs
  · rw [show (Measure.infinitePi fun _ : ℕ => callLaw M) = callsLaw M from rfl, hpR] at hlaw
    simp only [hpA] at hlaw
    rw [← hlaw]
    refine measureReal_congr ?_
    have haes : ∀ᵐ ω ∂callsLaw M, ∀ j, (ω j).2 ∈ Set.Ico (0 : ℝ) 1 := by
      rw [ae_all_iff]
      intro j
      have h1 : ∀ᵐ u ∂(volume.restrict (Set.Ico (0 : ℝ) 1)), u ∈ Set.Ico (0 : ℝ) 1 := ae_restrict_mem measurableSet_Ico
      have h2 : MeasurePreserving (Prod.snd : Call M → _) (callLaw M) (volume.restrict (Set.Ico (0 : ℝ) 1)) := measurePreserving_snd
      exact (h2.comp (measurePreserving_eval_infinitePi (fun _ : ℕ => callLaw M) j)).quasiMeasurePreserving.ae h1
    filter_upwards [haes] with ω hω
    refine propext ?_
    change (∃ fuel k, _) ↔ ω ∈ ⋃ f, stops (2 + 2 * M + M) (fun c => pick ⁻¹' A c) (fun m : Fin M => 2 + 2 * M + (m + 1)) (fun m => pick ⁻¹' R m) f cs
    rw [Set.mem_iUnion]
    refine exists_congr fun fuel => ?_
    have hround : ∀ c, (∀ l k, generateTorontonianSample (withCalls lib ω) ⟨2 * M, mu, cov⟩ 2 maxPhotons 1 cutoff c = .ok (some l, k) ↔ k = c + (2 + 2 * M + M) ∧ ∃ x, l = List.ofFn x ∧ pick (skip c ω) ∈ A x) ∧
        ∀ k, generateTorontonianSample (withCalls lib ω) ⟨2 * M, mu, cov⟩ 2 maxPhotons 1 cutoff c = .ok (none, k) ↔ ∃ m : Fin M, k = c + (2 + 2 * M + (m + 1)) ∧ pick (skip c ω) ∈ R m := fun c =>
      hgen (withCalls lib ω).normal (withCalls lib ω).uniform c (pick (skip c ω)) (fun k => hω _) rfl rfl (fun k hk => by
        simp only [withCalls, pick, skip]
        rw [show c + (2 + 2 * M) + k = c + (2 + 2 * M + k) by omega])
    have hcol := collect_stops (generateTorontonianSample (withCalls lib ω) ⟨2 * M, mu, cov⟩ 2 maxPhotons 1 cutoff) (2 + 2 * M + M) (fun m : Fin M => 2 + 2 * M + (m + 1)) ω
      (fun c => pick ⁻¹' A c) (fun m => pick ⁻¹' R m) (fun t => List.ofFn t) (fun c => (hround c).1) (fun c => (hround c).2) fuel 0 cs.length [] (cs.map List.ofFn)
    have hst : ∀ k, torontonianSampleState (withCalls lib ω) fuel (.arr (2 * M) (2 * M) fun i j => some (cov i j)) cs.length mu 2 maxPhotons 1 cutoff 0 = .ok (cs.map List.ofFn, k) ↔
        collect (generateTorontonianSample (withCalls lib ω) ⟨2 * M, mu, cov⟩ 2 maxPhotons 1 cutoff) fuel cs.length [] 0 = .ok (cs.map List.ofFn, k) := fun k => by
      have hck : covChecks (.arr (2 * M) (2 * M) fun i j => some (cov i j)) = .ok (2 * M, cov) := by
        unfold covChecks
        dsimp only
        rw [if_neg (by simp), if_neg (by simp)]
        rfl
      have hrun : torontonianSampleState (withCalls lib ω) fuel (.arr (2 * M) (2 * M) fun i j => some (cov i j)) cs.length mu 2 maxPhotons 1 cutoff 0 =
          (collect (generateTorontonianSample (withCalls lib ω) ⟨2 * M, mu, cov⟩ 2 maxPhotons 1 cutoff) fuel cs.length [] 0).bind fun p => vstack p.1 p.2 := by
        unfold torontonianSampleState torontonianSample
        rw [hck]
        rfl
      rw [hrun]
      generalize collect (generateTorontonianSample (withCalls lib ω) ⟨2 * M, mu, cov⟩ 2 maxPhotons 1 cutoff) fuel cs.length [] 0 = e
      have hv : ∀ (rows : List (List ℕ)) (k' : ℕ), vstack rows k' = if rows = [] then .error .valueError else .ok (rows, k') := fun rows k' => by
        unfold vstack
        split_ifs <;> rfl
      cases e with
      | error e => simp [Except.bind]
      | ok p =>
        change vstack p.1 p.2 = _ ↔ _
        rw [hv]
        obtain ⟨rows, k'⟩ := p
        have hne : cs.map List.ofFn ≠ [] := by simpa using hcs
        simp only [Except.ok.injEq, Prod.mk.injEq]
        by_cases h : rows = []
        · rw [if_pos h]
          constructor
          · intro h'; simp at h'
          · rintro ⟨h1, -⟩; exact absurd (h1.symm.trans h) hne
        · rw [if_neg h]
          simp
    rw [exists_congr hst, hcol, skip_zero]
    have hinj : Function.Injective (List.map (List.ofFn : (Fin M → ℕ) → List ℕ)) := List.map_injective_iff.mpr List.ofFn_injective
    constructor
    · rintro ⟨xs, -, h2, h3⟩
      rw [List.nil_append] at h2
      rwa [hinj h2]
    · intro h
      exact ⟨cs, rfl, rfl, h⟩
  · have : pick ω = pick ω' := by
      unfold pick
      rw [h 0 (by omega), h 1 (by omega)]
      refine Prod.ext rfl (Prod.ext rfl (funext fun i => ?_))
      dsimp only
      rw [h (2 + 2 * M + i) (by omega)]
    change pick ω' ∈ A c
    rw [← this]
    exact hω
  · refine hRd m (pick ω) (pick ω') ?_ ?_ (fun k hk => ?_) hω
    · simp only [pick]; rw [h 0 (by omega)]
    · simp only [pick]; rw [h 1 (by omega)]
    · simp only [pick]; rw [h (2 + 2 * M + k) (by rw [Fin.le_def] at hk; omega)]
  · change callsLaw M (pick ⁻¹' A c ∩ pick ⁻¹' R m) = 0
    rw [← Set.preimage_inter]
    refine hnull _ fun ω ⟨h1, h2⟩ hu => ?_
    have h5 := ((hone ω hu).1 (List.ofFn c) _).mpr ⟨rfl, c, rfl, h1⟩
    have h6 := ((hone ω hu).2 _).mpr ⟨m, rfl, h2⟩
    rw [h5] at h6
    simp at h6
  · change callsLaw M (pick ⁻¹' R m ∩ pick ⁻¹' R m') = 0
    rw [← Set.preimage_inter]
    refine hnull _ fun ω ⟨h1, h2⟩ hu => hmm ?_
    have h5 := ((hone ω hu).2 _).mpr ⟨m, rfl, h1⟩
    have h6 := ((hone ω hu).2 _).mpr ⟨m', rfl, h2⟩
    rw [h5] at h6
    simp only [Except.ok.injEq, Prod.mk.injEq, true_and] at h6
    exact Fin.ext (by omega)

/-- **C96** The rows that `torontonian_sample_state` returns with `fanout = 1` (ħ = 2) are independent, and each has the law of one run of `generate_torontonian_sample` given that the run does not give up: for every
physical Gaussian state, cutoff, `max_photons` and number of samples.  (A run that gives up uses fewer random numbers than one that does not.) -/
theorem torontonianSampleState_law (cs : List (Fin M → ℕ)) (hcs : cs ≠ []) :
    (callsLaw M).real (returnsClickRows lib M mu cov cutoff maxPhotons cs) =
      (cs.map fun c => (drawLaw M).real (returnsClicks lib ⟨2 * M, mu, cov⟩ M cutoff maxPhotons c) / (1 - (drawLaw M).real (rejectsClicks lib ⟨2 * M, mu, cov⟩ M cutoff maxPhotons))).prod :=
  (click_law_core lib hl htol M hM mu cov hph hsp cutoff hc maxPhotons ρ hρ cs hcs).1

/-- **C96** The probability that a run does not give up is the probability of at most `max_photons` clicks, up to the probability of more than `cutoff` photons in some mode. -/
theorem click_acceptance : |1 - (drawLaw M).real (rejectsClicks lib ⟨2 * M, mu, cov⟩ M cutoff maxPhotons) - fewClicks ρ maxPhotons| ≤ beyond ρ cutoff :=
  (click_law_core lib hl htol M hM mu cov hph hsp cutoff hc maxPhotons ρ hρ [fun _ => 0] (by simp)).2.1

end law

theorem beyond_tendsto {M : ℕ} (ρ : (Fin M → ℕ) → (Fin M → ℕ) → ℂ) : Filter.Tendsto (fun cutoff => beyond ρ cutoff) Filter.atTop (nhds 0) := by
  classical
  have h2 := tendsto_tsum_compl_atTop_zero fun m => (ρ m m).re
  have h3 : Filter.Tendsto (fun cutoff : ℕ => (Fintype.piFinset fun _ : Fin M => Finset.range (cutoff + 1))) Filter.atTop Filter.atTop := by
    refine Filter.tendsto_atTop_finset_of_monotone (fun a b hab => Fintype.piFinset_subset _ _ fun _ => Finset.range_mono (by omega)) fun m => ?_
    refine ⟨∑ i, m i, ?_⟩
    simp only [Fintype.mem_piFinset, Finset.mem_range, Nat.lt_succ_iff]
    exact fun i => Finset.single_le_sum (fun _ _ => Nat.zero_le _) (Finset.mem_univ i)
  refine (h2.comp h3).congr fun cutoff => ?_
  simp only [Function.comp]
  refine ((Equiv.subtypeEquivRight fun m => ?_).tsum_eq (fun m : {m // m ∉ Fintype.piFinset fun _ : Fin M => Finset.range (cutoff + 1)} => (ρ m m).re)).symm
  simp only [Fintype.mem_piFinset, Finset.mem_range, Nat.lt_succ_iff]
  push Not
  rfl

theorem fewClicks_pos {M : ℕ} {mu : ℕ → ℝ} {cov : ℕ → ℕ → ℝ} (hph : Physical (phase M M cov) 2) {ρ : (Fin M → ℕ) → (Fin M → ℕ) → ℂ} (hρ : IsFockMatrix M mu cov 2 ρ) (maxPhotons : ℕ) :
    0 < fewClicks ρ maxPhotons := by
  have hnn : ∀ m, 0 ≤ (ρ m m).re := fun m => ((fock_isPsd (by norm_num) hph hρ).diag m).1
  have h6 : HasSum (fun m => (ρ m m).re) 1 := by
    have := Complex.hasSum_re (fockMatrix_trace (by norm_num) hph hρ)
    simpa using this
  obtain ⟨h1, h2⟩ := fockMatrix_vacuum (by norm_num) hph hρ
  have hs : Summable fun t : {t : Fin M → ℕ // ∑ i, clk (t i) ≤ maxPhotons} => (ρ t t).re := h6.summable.subtype _
  refine hs.tsum_pos (fun t => hnn t) ⟨0, by simp [clk]⟩ ?_
  change 0 < (ρ 0 0).re
  rw [h1, Complex.ofReal_re]
  exact h2

/-- **C96** As the cutoff grows, the rows that `torontonian_sample_state` returns with `fanout = 1` (ħ = 2) become independent samples of the click statistics of the state, conditioned on at most `max_photons` clicks. -/
theorem torontonianSampleState_limit (lib : Lib) (hl : GoodSampler lib) (htol : 0 ≤ lib.tol) (M : ℕ) (hM : M ≠ 0) (mu : ℕ → ℝ) (cov : ℕ → ℕ → ℝ) (hph : Physical (phase M M cov) 2)
    (hsp : ∀ ν, SympSpectrum (phase M M cov) ν → ∀ i, ν i = 1 ∨ 1 + 1e-10 ≤ ν i) (maxPhotons : ℕ) (ρ : (Fin M → ℕ) → (Fin M → ℕ) → ℂ) (hρ : IsFockMatrix M mu cov 2 ρ)
    (cs : List (Fin M → ℕ)) (hcs : cs ≠ []) (hc01 : ∀ c ∈ cs, ∀ i, c i = 0 ∨ c i = 1) (hmax : ∀ c ∈ cs, ∑ i, c i ≤ maxPhotons) :
    Filter.Tendsto (fun cutoff => (callsLaw M).real (returnsClickRows lib M mu cov cutoff maxPhotons cs)) Filter.atTop
      (nhds (cs.map fun c => (∑' t : {t : Fin M → ℕ // ∀ i, 0 < t i ↔ c i = 1}, (ρ t t).re) / fewClicks ρ maxPhotons).prod) := by
  have hpos := fewClicks_pos hph hρ maxPhotons
  have hden : Filter.Tendsto (fun cutoff => 1 - (drawLaw M).real (rejectsClicks lib ⟨2 * M, mu, cov⟩ M cutoff maxPhotons)) Filter.atTop (nhds (fewClicks ρ maxPhotons)) := by
    rw [tendsto_iff_dist_tendsto_zero]
    refine squeeze_zero' (Filter.Eventually.of_forall fun _ => dist_nonneg) ?_ (beyond_tendsto ρ)
    filter_upwards [Filter.eventually_ge_atTop 1] with cutoff hc
    rw [Real.dist_eq]
    exact click_acceptance lib hl htol M hM mu cov hph hsp cutoff hc maxPhotons ρ hρ
  have hone : ∀ c ∈ cs, Filter.Tendsto (fun cutoff => (drawLaw M).real (returnsClicks lib ⟨2 * M, mu, cov⟩ M cutoff maxPhotons c) / (1 - (drawLaw M).real (rejectsClicks lib ⟨2 * M, mu, cov⟩ M cutoff maxPhotons)))
      Filter.atTop (nhds ((∑' t : {t : Fin M → ℕ // ∀ i, 0 < t i ↔ c i = 1}, (ρ t t).re) / fewClicks ρ maxPhotons)) := by
    intro c hcc
    refine Filter.Tendsto.div ?_ hden hpos.ne'
    rw [tendsto_iff_dist_tendsto_zero]
    refine squeeze_zero' (Filter.Eventually.of_forall fun _ => dist_nonneg) ?_ (beyond_tendsto ρ)
    filter_upwards [Filter.eventually_ge_atTop 1] with cutoff hc
    rw [Real.dist_eq]
    exact (generateTorontonianSample_law lib hl htol ⟨2 * M, mu, cov⟩ M hM rfl hph hsp cutoff hc maxPhotons ρ hρ c).2.1 (hc01 c hcc) (hmax c hcc)
  have hprod : ∀ l : List (Fin M → ℕ), (∀ c ∈ l, c ∈ cs) → Filter.Tendsto (fun cutoff => (l.map fun c => (drawLaw M).real (returnsClicks lib ⟨2 * M, mu, cov⟩ M cutoff maxPhotons c) / (1 - (drawLaw M).real (rejectsClicks lib ⟨2 * M, mu, cov⟩ M cutoff maxPhotons))).prod)
      Filter.atTop (nhds (l.map fun c => (∑' t : {t : Fin M → ℕ // ∀ i, 0 < t i ↔ c i = 1}, (ρ t t).re) / fewClicks ρ maxPhotons).prod) := by
    intro l
    induction l with
    | nil => intro _; simp only [List.map_nil, List.prod_nil]; exact tendsto_const_nhds
    | cons c l ih =>
      intro h
      simp only [List.map_cons, List.prod_cons]
      exact (hone c (h c (by simp))).mul (ih fun c' hc' => h c' (by simp [hc']))
  refine (hprod cs fun c hc => hc).congr' ?_
  filter_upwards [Filter.eventually_ge_atTop 1] with cutoff hc
  exact (torontonianSampleState_law lib hl htol M hM mu cov hph hsp cutoff hc maxPhotons ρ hρ cs hcs).symm

/-- **C96** When `max_photons` is at least the number of modes no run gives up for its clicks, and as the cutoff grows the rows that `torontonian_sample_state` returns become independent samples of `threshold_detection_prob`. -/
theorem torontonianSampleState_threshold (lib : Lib) (hl : GoodSampler lib) (htol : 0 ≤ lib.tol) {chol : ℕ → (ℕ → ℕ → ℂ) → Except PyErr (ℕ → ℕ → ℂ)} (hchol : CholeskyContract chol)
    (closeMu : ℝ → Bool) (hcl : ∀ x, closeMu x = true ↔ x = 0) (M : ℕ) (hM : M ≠ 0) (mu : ℕ → ℝ) (cov : ℕ → ℕ → ℝ) (hph : Physical (phase M M cov) 2)
    (hsp : ∀ ν, SympSpectrum (phase M M cov) ν → ∀ i, ν i = 1 ∨ 1 + 1e-10 ≤ ν i) (maxPhotons : ℕ) (hmax : M ≤ maxPhotons)
    (cs : List (Fin M → ℕ)) (hcs : cs ≠ []) (hc01 : ∀ c ∈ cs, ∀ i, c i = 0 ∨ c i = 1) :
    ∃ p : (Fin M → ℕ) → ℝ, (∀ c ∈ cs, Tor.thresholdProb chol closeMu ⟨2 * M, mu, cov⟩ (List.ofFn c) 2 = .ok (p c : ℂ)) ∧
      Filter.Tendsto (fun cutoff => (callsLaw M).real (returnsClickRows lib M mu cov cutoff maxPhotons cs)) Filter.atTop (nhds (cs.map p).prod) := by
  classical
  obtain ⟨ρ, _, _, -, hρ, -⟩ := fock_gram (N := M) mu (by norm_num : (0 : ℝ) < 2) hph
  refine ⟨fun c => ∑' t : {t : Fin M → ℕ // ∀ i, 0 < t i ↔ c i = 1}, (ρ t t).re, fun c hc => ?_, ?_⟩
  · obtain ⟨p, hp, hsum, -, -⟩ := thresholdProb_fock hchol closeMu hcl ⟨2 * M, mu, cov⟩ rfl (by norm_num : (0 : ℝ) < 2) hph hρ (List.ofFn c) (by simp) (by
      intro x hx
      obtain ⟨i, rfl⟩ := List.mem_ofFn.mp hx
      exact hc01 c hc i)
    rw [hp]
    congr 2
    have h1 := (Complex.hasSum_re hsum).tsum_eq
    rw [Complex.ofReal_re] at h1
    rw [← h1]
    refine ((Equiv.subtypeEquivRight fun t => forall_congr' fun i => ?_).tsum_eq
      (fun t : {t : Fin M → ℕ // ∀ k : Fin M, 0 < t k ↔ (List.ofFn c).getD k 0 = 1} => (ρ t t).re)).symm
    rw [List.getD_eq_getElem _ _ (by simp), List.getElem_ofFn]
  · have h01 : ∀ f : Fin M → ℕ, (∀ i, f i ≤ 1) → ∑ i, f i ≤ maxPhotons := fun f hf => by
      refine (Finset.sum_le_sum fun i _ => hf i).trans ?_
      simpa using hmax
    have hone : fewClicks ρ maxPhotons = 1 := by
      have h6 : HasSum (fun m => (ρ m m).re) 1 := by
        have := Complex.hasSum_re (fockMatrix_trace (by norm_num) hph hρ)
        simpa using this
      rw [← h6.tsum_eq]
      exact (Equiv.subtypeUnivEquiv (p := fun t : Fin M → ℕ => ∑ i, clk (t i) ≤ maxPhotons) fun t => h01 _ fun i => by unfold clk; split_ifs <;> omega).tsum_eq fun t => (ρ t t).re
    have := torontonianSampleState_limit lib hl htol M hM mu cov hph hsp maxPhotons ρ hρ cs hcs hc01 fun c hc => h01 c fun i => by rcases hc01 c hc i with h | h <;> omega
    simpa only [hone, div_one] using this

/-- A concrete case: two entangled modes, at most one click: the rows (0, 1) and (0, 0). -/
example (mu : ℕ → ℝ) : ∃ lib, GoodSampler lib ∧ 0 ≤ lib.tol ∧ ∃ ρ, IsFockMatrix 2 mu tmsExample 2 ρ ∧
    Filter.Tendsto (fun cutoff => (callsLaw 2).real (returnsClickRows lib 2 mu tmsExample cutoff 1 [![0, 1], ![0, 0]])) Filter.atTop
      (nhds (([![0, 1], ![0, 0]] : List (Fin 2 → ℕ)).map fun c => (∑' t : {t : Fin 2 → ℕ // ∀ i, 0 < t i ↔ c i = 1}, (ρ t t).re) / fewClicks ρ 1).prod) ∧ 0 < fewClicks ρ 1 := by
  obtain ⟨lib0, hl0, -⟩ := goodSampler_exists exampleLib
  have hl : GoodSampler { lib0 with tol := 1 } := ⟨hl0.1, hl0.2, hl0.3, hl0.4⟩
  have hph : Physical (phase 2 2 tmsExample) 2 := (physical_iff_spectrum _ 2 (by norm_num) _ tmsExample_spec).mpr fun _ => by norm_num
  obtain ⟨ρ, _, _, -, hρ, -⟩ := fock_gram (N := 2) mu (by norm_num : (0 : ℝ) < 2) hph
  refine ⟨_, hl, by norm_num, ρ, hρ, ?_, fewClicks_pos hph hρ 1⟩
  refine torontonianSampleState_limit _ hl (by norm_num) 2 (by norm_num) mu tmsExample hph (fun ν hν i => Or.inl ?_) 1 ρ hρ _ (by simp) (by simp [Fin.forall_fin_two]) (by simp)
  have hp := sympSpectrum_unique _ _ _ hν tmsExample_spec
  have hm : ν i ∈ List.ofFn fun _ : Fin 2 => (1 : ℝ) := hp.mem_iff.mp (List.mem_ofFn.mpr ⟨i, rfl⟩)
  obtain ⟨j, hj⟩ := List.mem_ofFn.mp hm
  exact hj.symm

end Verif.Props
