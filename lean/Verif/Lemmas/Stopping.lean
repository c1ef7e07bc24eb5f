/-
Rejection sampling from a sequence of independent draws, when the rounds use different numbers of draws.
-/
import Verif.Lemmas.Rejection

namespace Verif.Lemmas.Rej
open MeasureTheory Measure

variable {Ω X ι : Type*} [MeasurableSpace Ω] (P : Measure Ω) [IsProbabilityMeasure P]

/-- the sequence without its first `l` entries -/
def skip (l : ℕ) (ω : ℕ → Ω) : ℕ → Ω := fun n => ω (l + n)

omit [MeasurableSpace Ω] in
theorem skip_zero (ω : ℕ → Ω) : skip 0 ω = ω := funext fun n => by rw [skip, zero_add]

omit [MeasurableSpace Ω] in
theorem skip_skip (a b : ℕ) (ω : ℕ → Ω) : skip b (skip a ω) = skip (a + b) ω := funext fun n => by rw [skip, skip, skip, add_assoc]

omit [MeasurableSpace Ω] in
theorem skip_front (l : ℕ) (p : Ω × (ℕ → Ω)) : skip (l + 1) (front p) = skip l p.2 := funext fun n => by
  rw [skip, skip, show l + 1 + n = (l + n) + 1 by omega, front_succ]

theorem skip_measurable (l : ℕ) : Measurable (skip l : (ℕ → Ω) → ℕ → Ω) := measurable_pi_iff.mpr fun n => measurable_pi_apply (l + n)

/-- the event is decided by the first `l` entries -/
def Decided (l : ℕ) (E : Set (ℕ → Ω)) : Prop := ∀ ω ω' : ℕ → Ω, (∀ i < l, ω i = ω' i) → ω ∈ E → ω' ∈ E

/-- an event that is decided by the first `l` entries is independent of the sequence of the others -/
theorem decided_indep (l : ℕ) : ∀ (E F : Set (ℕ → Ω)), MeasurableSet E → MeasurableSet F → Decided l E →
    (infinitePi fun _ : ℕ => P) (E ∩ skip l ⁻¹' F) = (infinitePi fun _ : ℕ => P) E * (infinitePi fun _ : ℕ => P) F := by
  induction l with
  | zero =>
    intro E F hE hF hd
    have h0 : (skip 0 : (ℕ → Ω) → ℕ → Ω) = id := funext skip_zero
    rw [h0, Set.preimage_id]
    rcases E.eq_empty_or_nonempty with rfl | ⟨ω, hω⟩
    · simp
    · have : E = Set.univ := Set.eq_univ_of_forall fun ω' => hd ω ω' (fun i hi => absurd hi (by omega)) hω
      rw [this, Set.univ_inter, measure_univ, one_mul]
  | succ l ih =>
    intro E F hE hF hd
    have hEF : MeasurableSet (E ∩ skip (l + 1) ⁻¹' F) := hE.inter (skip_measurable _ hF)
    rw [← (front_preserving P).measure_preimage hEF.nullMeasurableSet, ← (front_preserving P).measure_preimage hE.nullMeasurableSet,
      Measure.prod_apply (front_measurable hEF), Measure.prod_apply (front_measurable hE)]
    rw [← lintegral_mul_const _ (measurable_measure_prodMk_left (front_measurable hE))]
    refine lintegral_congr fun a => ?_
    have e : Prod.mk a ⁻¹' (front ⁻¹' (E ∩ skip (l + 1) ⁻¹' F)) = (Prod.mk a ⁻¹' (front ⁻¹' E)) ∩ skip l ⁻¹' F := by
      ext w
      simp only [Set.mem_preimage, Set.mem_inter_iff, skip_front]
    rw [e]
    refine ih _ F (measurable_prodMk_left (front_measurable hE)) hF fun w w' hw h => ?_
    refine hd _ _ (fun i hi => ?_) h
    cases i with
    | zero => rfl
    | succ i => exact hw i (by omega)

variable (L : ℕ) (A : X → Set (ℕ → Ω)) (l : ι → ℕ) (R : ι → Set (ℕ → Ω))

/-- the sequences of draws for which the outcomes `xs` are accepted one after the other within `f` rounds; an accepted outcome takes `L` draws, a rejection of type
`m` takes `l m` -/
def stops : ℕ → List X → Set (ℕ → Ω)
  | _, [] => Set.univ
  | 0, _ :: _ => ∅
  | f + 1, x :: xs => {ω | (ω ∈ A x ∧ skip L ω ∈ stops f xs) ∨ ∃ m, ω ∈ R m ∧ skip (l m) ω ∈ stops f (x :: xs)}

omit [MeasurableSpace Ω] in
theorem stops_nil (f : ℕ) : stops L A l R f [] = Set.univ := by cases f <;> rfl

omit [MeasurableSpace Ω] in
theorem stops_mono (f : ℕ) (xs : List X) : stops L A l R f xs ⊆ stops L A l R (f + 1) xs := by
  induction f generalizing xs with
  | zero => cases xs with
    | nil => rw [stops_nil, stops_nil]
    | cons x xs => exact Set.empty_subset _
  | succ f ih => cases xs with
    | nil => rw [stops_nil, stops_nil]
    | cons x xs =>
      rintro ω (⟨h1, h2⟩ | ⟨m, h1, h2⟩)
      · exact Or.inl ⟨h1, ih _ h2⟩
      · exact Or.inr ⟨m, h1, ih _ h2⟩

variable [Fintype ι]
variable {L A l R} (hA : ∀ x, MeasurableSet (A x)) (hR : ∀ m, MeasurableSet (R m)) (hAL : ∀ x, Decided L (A x)) (hRl : ∀ m, Decided (l m) (R m))
  (hd : ∀ x m, AEDisjoint (infinitePi fun _ : ℕ => P) (A x) (R m)) (hdR : ∀ m m', m ≠ m' → AEDisjoint (infinitePi fun _ : ℕ => P) (R m) (R m'))
include hA hR

theorem stops_measurable (f : ℕ) (xs : List X) : MeasurableSet (stops L A l R f xs) := by
  induction f generalizing xs with
  | zero => cases xs with
    | nil => exact MeasurableSet.univ
    | cons x xs => exact MeasurableSet.empty
  | succ f ih => cases xs with
    | nil => exact MeasurableSet.univ
    | cons x xs =>
      have e : stops L A l R (f + 1) (x :: xs) = (A x ∩ skip L ⁻¹' stops L A l R f xs) ∪ ⋃ m, R m ∩ skip (l m) ⁻¹' stops L A l R f (x :: xs) := by
        ext ω
        simp only [stops, Set.mem_union, Set.mem_iUnion]
        rfl
      rw [e]
      exact ((hA x).inter (skip_measurable _ (ih xs))).union (MeasurableSet.iUnion fun m => (hR m).inter (skip_measurable _ (ih (x :: xs))))

include hAL hRl hd hdR

theorem stops_step (f : ℕ) (x : X) (xs : List X) : (infinitePi fun _ : ℕ => P) (stops L A l R (f + 1) (x :: xs)) =
    (infinitePi fun _ : ℕ => P) (A x) * (infinitePi fun _ : ℕ => P) (stops L A l R f xs) + (infinitePi fun _ : ℕ => P) (⋃ m, R m) * (infinitePi fun _ : ℕ => P) (stops L A l R f (x :: xs)) := by
  have e : stops L A l R (f + 1) (x :: xs) = (A x ∩ skip L ⁻¹' stops L A l R f xs) ∪ ⋃ m, R m ∩ skip (l m) ⁻¹' stops L A l R f (x :: xs) := by
    ext ω
    simp only [stops, Set.mem_union, Set.mem_iUnion]
    rfl
  have hm1 := stops_measurable hA hR (L := L) (l := l) f xs
  have hm2 := stops_measurable hA hR (L := L) (l := l) f (x :: xs)
  have hms : ∀ m, MeasurableSet (R m ∩ skip (l m) ⁻¹' stops L A l R f (x :: xs)) := fun m => (hR m).inter (skip_measurable _ hm2)
  rw [e, measure_union₀ (MeasurableSet.iUnion hms).nullMeasurableSet _, decided_indep P L _ _ (hA x) hm1 (hAL x),
    measure_iUnion₀ (fun m m' h => (hdR m m' h).mono Set.inter_subset_left Set.inter_subset_left) (fun m => (hms m).nullMeasurableSet), measure_iUnion₀ (fun m m' h => hdR m m' h) (fun m => (hR m).nullMeasurableSet), ENNReal.tsum_mul_right.symm]
  · congr 1
    exact tsum_congr fun m => decided_indep P (l m) _ _ (hR m) hm2 (hRl m)
  · rw [AEDisjoint.iUnion_right_iff]
    exact fun m => (hd x m).mono Set.inter_subset_left Set.inter_subset_left

/-- The outcomes accepted are independent, and each has the distribution of the outcome of one round given that the round does not reject. -/
theorem stops_law (hq : (infinitePi fun _ : ℕ => P).real (⋃ m, R m) < 1) (xs : List X) : (infinitePi fun _ : ℕ => P).real (⋃ f, stops L A l R f xs) =
    (xs.map fun x => (infinitePi fun _ : ℕ => P).real (A x) / (1 - (infinitePi fun _ : ℕ => P).real (⋃ m, R m))).prod := by
  have hm : ∀ xs : List X, Filter.Tendsto (fun f => (infinitePi fun _ : ℕ => P).real (stops L A l R f xs)) Filter.atTop (nhds ((infinitePi fun _ : ℕ => P).real (⋃ f, stops L A l R f xs))) := fun xs =>
    (ENNReal.tendsto_toReal (measure_ne_top _ _)).comp (tendsto_measure_iUnion_atTop (monotone_nat_of_le_succ fun f => stops_mono L A l R f xs))
  induction xs with
  | nil =>
    have : (⋃ f, stops L A l R f ([] : List X)) = Set.univ := by
      simp only [stops_nil]
      exact Set.iUnion_const _
    rw [this, probReal_univ, List.map_nil, List.prod_nil]
  | cons x xs ih =>
    have h1 := (hm (x :: xs)).comp (Filter.tendsto_add_atTop_nat 1)
    have h2 := ((hm xs).const_mul ((infinitePi fun _ : ℕ => P).real (A x))).add ((hm (x :: xs)).const_mul ((infinitePi fun _ : ℕ => P).real (⋃ m, R m)))
    have h3 := tendsto_nhds_unique h1 (h2.congr fun f => by
      rw [Function.comp_apply, measureReal_def, measureReal_def, measureReal_def, measureReal_def, measureReal_def, stops_step P hA hR hAL hRl hd hdR, ENNReal.toReal_add (ENNReal.mul_ne_top (measure_ne_top _ _) (measure_ne_top _ _)) (ENNReal.mul_ne_top (measure_ne_top _ _) (measure_ne_top _ _)), ENNReal.toReal_mul, ENNReal.toReal_mul])
    rw [ih] at h3
    rw [List.map_cons, List.prod_cons, div_mul_eq_mul_div, eq_div_iff (by linarith)]
    linarith

end Verif.Lemmas.Rej
