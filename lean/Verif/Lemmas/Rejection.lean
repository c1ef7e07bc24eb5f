/-
Rejection sampling: independent rounds, each of which accepts with an outcome, rejects, or stops everything, repeated until a given number of outcomes has been accepted.
-/
import Mathlib.Probability.ProductMeasure
import Mathlib.MeasureTheory.Measure.Prod
import Mathlib.Topology.Algebra.Order.LiminfLimsup
import Mathlib.Topology.Instances.ENNReal.Lemmas

namespace Verif.Lemmas.Rej
open MeasureTheory Measure

variable {Ω X : Type*} [MeasurableSpace Ω] (P : Measure Ω) [IsProbabilityMeasure P]

/-- put a round in front of a sequence of rounds -/
def front (p : Ω × (ℕ → Ω)) : ℕ → Ω := fun n => Nat.casesOn n p.1 p.2

omit [MeasurableSpace Ω] in
theorem front_zero (p : Ω × (ℕ → Ω)) : front p 0 = p.1 := rfl
omit [MeasurableSpace Ω] in
theorem front_succ (p : Ω × (ℕ → Ω)) (n : ℕ) : front p (n + 1) = p.2 n := rfl

theorem front_measurable : Measurable (front : Ω × (ℕ → Ω) → ℕ → Ω) := by
  refine measurable_pi_iff.mpr fun n => ?_
  cases n with
  | zero => exact measurable_fst
  | succ n => exact (measurable_pi_apply n).comp measurable_snd

/-- independent rounds: the first one and the sequence of the others are independent -/
theorem front_preserving : MeasurePreserving front (P.prod (infinitePi fun _ : ℕ => P)) (infinitePi fun _ : ℕ => P) := by
  classical
  refine ⟨front_measurable, eq_infinitePi (μ := fun _ : ℕ => P) fun s t ht => ?_⟩
  rw [Measure.map_apply front_measurable (MeasurableSet.pi s.countable_toSet fun i _ => ht i)]
  have e : front ⁻¹' (Set.pi s t) = (if 0 ∈ s then t 0 else Set.univ) ×ˢ (Set.pi (s.preimage Nat.succ Nat.succ_injective.injOn : Finset ℕ) fun i => t (i + 1)) := by
    ext p
    simp only [Set.mem_preimage, Set.mem_pi, Set.mem_prod, Finset.mem_coe, Finset.mem_preimage]
    constructor
    · intro h
      refine ⟨?_, fun i hi => h (i + 1) hi⟩
      split_ifs with h0
      · exact h 0 h0
      · exact Set.mem_univ _
    · rintro ⟨h0, h1⟩ i hi
      cases i with
      | zero => rw [if_pos hi] at h0; exact h0
      | succ i => exact h1 i hi
  rw [e, Measure.prod_prod, infinitePi_pi _ fun i _ => ht (i + 1)]
  have h2 : ∏ i ∈ s.preimage Nat.succ Nat.succ_injective.injOn, P (t (i + 1)) = ∏ i ∈ s.erase 0, P (t i) := by
    rw [show (∏ i ∈ s.preimage Nat.succ Nat.succ_injective.injOn, P (t (i + 1))) = ∏ i ∈ s.preimage Nat.succ Nat.succ_injective.injOn, (fun i => if i = 0 then 1 else P (t i)) (Nat.succ i) from
      Finset.prod_congr rfl fun i _ => by simp]
    rw [Finset.prod_preimage Nat.succ s Nat.succ_injective.injOn (fun i => if i = 0 then 1 else P (t i)) fun i _ hi => by
      have : i = 0 := by
        by_contra h
        exact hi ⟨i - 1, by simp; omega⟩
      rw [if_pos this]]
    by_cases h0 : 0 ∈ s
    · rw [← Finset.mul_prod_erase s _ h0, if_pos rfl, one_mul]
      exact Finset.prod_congr rfl fun i hi => if_neg (Finset.ne_of_mem_erase hi)
    · rw [Finset.erase_eq_of_notMem h0]
      exact Finset.prod_congr rfl fun i hi => if_neg (ne_of_mem_of_not_mem hi h0)
  rw [h2]
  split_ifs with h0
  · exact Finset.mul_prod_erase s (fun i => P (t i)) h0
  · rw [measure_univ, one_mul, Finset.erase_eq_of_notMem h0]

variable (A : X → Set Ω) (R : Set Ω)

/-- the sequences of rounds for which the outcomes `xs` are accepted one after the other, with rejections in between, within `f` rounds -/
def runs : ℕ → List X → Set (ℕ → Ω)
  | _, [] => Set.univ
  | 0, _ :: _ => ∅
  | f + 1, x :: xs => {ω | (ω 0 ∈ A x ∧ (fun n => ω (n + 1)) ∈ runs f xs) ∨ (ω 0 ∈ R ∧ (fun n => ω (n + 1)) ∈ runs f (x :: xs))}

omit [MeasurableSpace Ω] in
theorem runs_nil (f : ℕ) : runs A R f [] = Set.univ := by cases f <;> rfl

omit [MeasurableSpace Ω] in
theorem runs_mono (f : ℕ) (xs : List X) : runs A R f xs ⊆ runs A R (f + 1) xs := by
  induction f generalizing xs with
  | zero => cases xs with
    | nil => rw [runs_nil, runs_nil]
    | cons x xs => exact Set.empty_subset _
  | succ f ih => cases xs with
    | nil => rw [runs_nil, runs_nil]
    | cons x xs =>
      rintro ω (⟨h1, h2⟩ | ⟨h1, h2⟩)
      · exact Or.inl ⟨h1, ih _ h2⟩
      · exact Or.inr ⟨h1, ih _ h2⟩

variable {A R} (hA : ∀ x, MeasurableSet (A x)) (hR : MeasurableSet R) (hd : ∀ x, Disjoint (A x) R)
include hA hR

theorem runs_measurable (f : ℕ) (xs : List X) : MeasurableSet (runs A R f xs) := by
  have ht : Measurable fun (ω : ℕ → Ω) (n : ℕ) => ω (n + 1) := measurable_pi_iff.mpr fun n => measurable_pi_apply (n + 1)
  induction f generalizing xs with
  | zero => cases xs with
    | nil => exact MeasurableSet.univ
    | cons x xs => exact MeasurableSet.empty
  | succ f ih => cases xs with
    | nil => exact MeasurableSet.univ
    | cons x xs => exact ((measurable_pi_apply 0 (hA x)).inter (ht (ih xs))).union ((measurable_pi_apply 0 hR).inter (ht (ih (x :: xs))))

include hd

theorem runs_step (f : ℕ) (x : X) (xs : List X) : (infinitePi fun _ : ℕ => P) (runs A R (f + 1) (x :: xs)) =
    P (A x) * (infinitePi fun _ : ℕ => P) (runs A R f xs) + P R * (infinitePi fun _ : ℕ => P) (runs A R f (x :: xs)) := by
  have h := (front_preserving P).measure_preimage (runs_measurable hA hR (f + 1) (x :: xs)).nullMeasurableSet
  have e : front ⁻¹' (runs A R (f + 1) (x :: xs)) = A x ×ˢ runs A R f xs ∪ R ×ˢ runs A R f (x :: xs) := by
    ext p
    exact Iff.rfl
  rw [← h, e, measure_union _ (hR.prod (runs_measurable hA hR f (x :: xs))), Measure.prod_prod, Measure.prod_prod]
  exact Set.disjoint_prod.mpr (Or.inl (hd x))

/-- The outcomes accepted are independent, and each has the distribution of the outcome of one round given that the round does not reject. -/
theorem runs_law (hq : P.real R < 1) (xs : List X) : (infinitePi fun _ : ℕ => P).real (⋃ f, runs A R f xs) = (xs.map fun x => P.real (A x) / (1 - P.real R)).prod := by
  have hm : ∀ xs : List X, Filter.Tendsto (fun f => (infinitePi fun _ : ℕ => P).real (runs A R f xs)) Filter.atTop (nhds ((infinitePi fun _ : ℕ => P).real (⋃ f, runs A R f xs))) := fun xs =>
    (ENNReal.tendsto_toReal (measure_ne_top _ _)).comp (tendsto_measure_iUnion_atTop (monotone_nat_of_le_succ fun f => runs_mono A R f xs))
  induction xs with
  | nil =>
    have : (⋃ f, runs A R f ([] : List X)) = Set.univ := by
      simp only [runs_nil]
      exact Set.iUnion_const _
    rw [this, probReal_univ, List.map_nil, List.prod_nil]
  | cons x xs ih =>
    have h1 := (hm (x :: xs)).comp (Filter.tendsto_add_atTop_nat 1)
    have h2 := ((hm xs).const_mul (P.real (A x))).add ((hm (x :: xs)).const_mul (P.real R))
    have h3 := tendsto_nhds_unique h1 (h2.congr fun f => by
      rw [Function.comp_apply, measureReal_def, measureReal_def, measureReal_def, measureReal_def, measureReal_def, runs_step P hA hR hd, ENNReal.toReal_add (ENNReal.mul_ne_top (measure_ne_top _ _) (measure_ne_top _ _)) (ENNReal.mul_ne_top (measure_ne_top _ _) (measure_ne_top _ _)), ENNReal.toReal_mul, ENNReal.toReal_mul])
    rw [ih] at h3
    rw [List.map_cons, List.prod_cons, div_mul_eq_mul_div, eq_div_iff (by linarith)]
    linarith

end Verif.Lemmas.Rej
