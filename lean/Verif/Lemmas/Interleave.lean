/-
Several tasks that draw from one stream of independent random elements: whatever the schedule (which may depend on everything drawn so far), the tasks see independent streams.
-/
import Verif.Lemmas.Stopping
import Mathlib.MeasureTheory.Constructions.BorelSpace.Basic
import Mathlib.Data.Nat.Nth

set_option linter.style.longLine false

namespace Verif.Lemmas.Rej
open MeasureTheory Measure

variable {Ω ι : Type*} [MeasurableSpace Ω] (P : Measure Ω) [IsProbabilityMeasure P]

/-- a family of independent elements with one more element, at the place `j0`; `e` numbers the other places -/
noncomputable def ins {J : Type*} [DecidableEq J] (j0 : J) (e : J → J) (p : Ω × (J → Ω)) : J → Ω := by
  classical exact fun j => if j = j0 then p.1 else if h : ∃ j', e j' = j then p.2 h.choose else p.1

omit [MeasurableSpace Ω] in
theorem ins_zero {J : Type*} [DecidableEq J] (j0 : J) (e : J → J) (p : Ω × (J → Ω)) : ins j0 e p j0 = p.1 := by simp [ins]

omit [MeasurableSpace Ω] in
theorem ins_succ {J : Type*} [DecidableEq J] (j0 : J) (e : J → J) (he : Function.Injective e) (hne : ∀ j, e j ≠ j0) (p : Ω × (J → Ω)) (j : J) : ins j0 e p (e j) = p.2 j := by
  have h : ∃ j', e j' = e j := ⟨j, rfl⟩
  simp only [ins, if_neg (hne j), dif_pos h]
  rw [he h.choose_spec]

theorem ins_measurable {J : Type*} [DecidableEq J] (j0 : J) (e : J → J) : Measurable (ins j0 e : Ω × (J → Ω) → J → Ω) := by
  classical
  refine measurable_pi_iff.mpr fun j => ?_
  unfold ins
  by_cases h : j = j0
  · simp only [if_pos h]; exact measurable_fst
  · by_cases h2 : ∃ j', e j' = j
    · simp only [if_neg h, dif_pos h2]; exact (measurable_pi_apply _).comp measurable_snd
    · simp only [if_neg h, dif_neg h2]; exact measurable_fst

theorem ins_preserving {J : Type*} [DecidableEq J] (j0 : J) (e : J → J) (he : Function.Injective e) (hne : ∀ j, e j ≠ j0) (hcov : ∀ j, j = j0 ∨ ∃ j', e j' = j) :
    MeasurePreserving (ins j0 e) (P.prod (infinitePi fun _ : J => P)) (infinitePi fun _ : J => P) := by
  classical
  refine ⟨ins_measurable j0 e, eq_infinitePi (μ := fun _ : J => P) fun s t ht => ?_⟩
  rw [Measure.map_apply (ins_measurable j0 e) (MeasurableSet.pi s.countable_toSet fun i _ => ht i)]
  have e1 : ins j0 e ⁻¹' (Set.pi s t) = (if j0 ∈ s then t j0 else Set.univ) ×ˢ (Set.pi (s.preimage e he.injOn : Finset J) fun i => t (e i)) := by
    ext p
    simp only [Set.mem_preimage, Set.mem_pi, Set.mem_prod, Finset.mem_coe, Finset.mem_preimage]
    constructor
    · intro h
      refine ⟨?_, fun i hi => ?_⟩
      · split_ifs with h0
        · have := h j0 h0; rwa [ins_zero] at this
        · exact Set.mem_univ _
      · have := h (e i) hi; rwa [ins_succ j0 e he hne] at this
    · rintro ⟨h0, h1⟩ i hi
      rcases hcov i with rfl | ⟨j, rfl⟩
      · rw [if_pos hi] at h0; rw [ins_zero]; exact h0
      · rw [ins_succ j0 e he hne]; exact h1 j hi
  rw [e1, Measure.prod_prod, infinitePi_pi _ fun i _ => ht (e i)]
  have h2 : ∏ i ∈ s.preimage e he.injOn, P (t (e i)) = ∏ i ∈ s.erase j0, P (t i) := by
    rw [show (∏ i ∈ s.preimage e he.injOn, P (t (e i))) = ∏ i ∈ s.preimage e he.injOn, (fun i => if i = j0 then 1 else P (t i)) (e i) from
      Finset.prod_congr rfl fun i _ => by simp [hne i]]
    rw [Finset.prod_preimage e s he.injOn (fun i => if i = j0 then 1 else P (t i)) fun i _ hi => by
      rcases hcov i with h | ⟨j, rfl⟩
      · rw [if_pos h]
      · exact absurd ⟨j, rfl⟩ hi]
    by_cases h0 : j0 ∈ s
    · rw [← Finset.mul_prod_erase s _ h0, if_pos rfl, one_mul]
      exact Finset.prod_congr rfl fun i hi => if_neg (Finset.ne_of_mem_erase hi)
    · rw [Finset.erase_eq_of_notMem h0]
      exact Finset.prod_congr rfl fun i hi => if_neg (ne_of_mem_of_not_mem hi h0)
  rw [h2]
  split_ifs with h0
  · exact Finset.mul_prod_erase s (fun i => P (t i)) h0
  · rw [measure_univ, one_mul, Finset.erase_eq_of_notMem h0]

section sched
variable [DecidableEq ι] (s : List Ω → ι)

/-- the first `t` elements of a stream -/
def past (ω : ℕ → Ω) (t : ℕ) : List Ω := (List.range t).map ω

/-- how many of the first `t` elements the task `i` was given by the schedule -/
def given (ω : ℕ → Ω) (i : ι) (t : ℕ) : ℕ := ((Finset.range t).filter fun u => s (past ω u) = i).card

/-- element `t` of the stream is element `k` of those that task `i` was given -/
def isNth (ω : ℕ → Ω) (i : ι) (k t : ℕ) : Prop := s (past ω t) = i ∧ given s ω i t = k

/-- the stream that task `i` sees; after the last element that it was given, `pad` -/
noncomputable def seen (pad : Ω) (ω : ℕ → Ω) (i : ι) (k : ℕ) : Ω := by
  classical exact if h : ∃ t, isNth s ω i k t then ω h.choose else pad

/-- the numbers of elements given, and the past, after `t` elements, if task `i` is given the elements of the stream `η (i, ·)` -/
def mst (η : ι × ℕ → Ω) : ℕ → (ι → ℕ) × List Ω
  | 0 => (fun _ => 0, [])
  | t + 1 => (Function.update (mst η t).1 (s (mst η t).2) ((mst η t).1 (s (mst η t).2) + 1), (mst η t).2 ++ [η (s (mst η t).2, (mst η t).1 (s (mst η t).2))])

/-- the stream in which the schedule interleaves the streams `η (i, ·)` -/
def merge (η : ι × ℕ → Ω) (t : ℕ) : Ω := η (s (mst s η t).2, (mst s η t).1 (s (mst s η t).2))

omit [MeasurableSpace Ω] in
theorem mst_past (η : ι × ℕ → Ω) (t : ℕ) : (mst s η t).2 = past (merge s η) t := by
  induction t with
  | zero => rfl
  | succ t ih =>
    unfold past at ih ⊢
    rw [List.range_succ, List.map_append, ← ih]
    rfl

omit [MeasurableSpace Ω] in
theorem mst_given (η : ι × ℕ → Ω) (t : ℕ) (i : ι) : (mst s η t).1 i = given s (merge s η) i t := by
  induction t with
  | zero => rfl
  | succ t ih =>
    unfold given at ih ⊢
    rw [Finset.range_add_one, Finset.filter_insert]
    change Function.update (mst s η t).1 (s (mst s η t).2) ((mst s η t).1 (s (mst s η t).2) + 1) i = _
    rw [mst_past]
    by_cases h : s (past (merge s η) t) = i
    · rw [if_pos h, h, Function.update_self, ih, Finset.card_insert_of_notMem (by simp)]
    · rw [if_neg h, Function.update_of_ne (Ne.symm h), ih]

omit [MeasurableSpace Ω] in
/-- what a task is given is its own stream -/
theorem merge_nth (η : ι × ℕ → Ω) (i : ι) (k t : ℕ) (h : isNth s (merge s η) i k t) : merge s η t = η (i, k) := by
  obtain ⟨h1, h2⟩ := h
  rw [← mst_given] at h2
  rw [merge, mst_past, h1, h2]

omit [MeasurableSpace Ω] in
theorem seen_merge (pad : Ω) (η : ι × ℕ → Ω) (i : ι) (k : ℕ) (h : ∃ t, isNth s (merge s η) i k t) : seen s pad (merge s η) i k = η (i, k) := by
  simp only [seen, dif_pos h]
  exact merge_nth s η i k _ h.choose_spec

omit [MeasurableSpace Ω] in
theorem isNth_unique (ω : ℕ → Ω) (i : ι) (k t t' : ℕ) (h : isNth s ω i k t) (h' : isNth s ω i k t') : t = t' := by
  have key : ∀ a b, a < b → isNth s ω i k a → isNth s ω i k b → False := by
    intro a b hab ha hb
    have : given s ω i a < given s ω i b := by
      refine Finset.card_lt_card ⟨?_, fun hsub => ?_⟩
      · intro u hu
        rw [Finset.mem_filter, Finset.mem_range] at hu ⊢
        exact ⟨by omega, hu.2⟩
      · have := hsub (Finset.mem_filter.mpr ⟨Finset.mem_range.mpr hab, ha.1⟩)
        simp at this
    rw [ha.2, hb.2] at this
    exact lt_irrefl _ this
  rcases lt_trichotomy t t' with h1 | h1 | h1
  · exact (key _ _ h1 h h').elim
  · exact h1
  · exact (key _ _ h1 h' h).elim

omit [MeasurableSpace Ω] in
/-- after the first element is drawn, the schedule goes on with the rest of the streams -/
theorem mst_peel (x : Ω) (η : ι × ℕ → Ω) (t : ℕ) :
    mst s (ins (s [], 0) (fun p => (p.1, if p.1 = s [] then p.2 + 1 else p.2)) (x, η)) (t + 1) =
      (fun i => (mst (fun h => s (x :: h)) η t).1 i + (if i = s [] then 1 else 0), x :: (mst (fun h => s (x :: h)) η t).2) := by
  set e : ι × ℕ → ι × ℕ := fun p => (p.1, if p.1 = s [] then p.2 + 1 else p.2) with he
  have hinj : Function.Injective e := by
    rintro ⟨i, k⟩ ⟨j, l⟩ h
    simp only [he, Prod.mk.injEq] at h
    obtain ⟨rfl, h⟩ := h
    split_ifs at h
    · simp only [Prod.mk.injEq, true_and]; omega
    · simp [h]
  have hne : ∀ p, e p ≠ (s [], 0) := by
    rintro ⟨i, k⟩ h
    simp only [he, Prod.mk.injEq] at h
    obtain ⟨h1, h2⟩ := h
    rw [if_pos h1] at h2
    omega
  have hz : ins (s [], 0) e (x, η) (s [], 0) = x := ins_zero _ _ _
  have hsu : ∀ i k, ins (s [], 0) e (x, η) (i, k + if i = s [] then 1 else 0) = η (i, k) := fun i k => by
    have := ins_succ (s [], 0) e hinj hne (x, η) (i, k)
    refine Eq.trans (congrArg _ ?_) this
    simp only [he, Prod.mk.injEq, true_and]
    split_ifs <;> rfl
  generalize ins (s [], 0) e (x, η) = ζ at hz hsu
  induction t with
  | zero =>
    change ((Function.update (fun _ => 0) (s []) (0 + 1), [] ++ [ζ (s [], 0)]) : (ι → ℕ) × List Ω) = _
    rw [hz]
    refine Prod.ext (funext fun i => ?_) rfl
    change Function.update (fun _ => 0) (s []) (0 + 1) i = 0 + _
    by_cases h : i = s []
    · rw [if_pos h, h, Function.update_self]
    · rw [if_neg h, Function.update_of_ne h]
  | succ t ih =>
    have e1 : mst s ζ (t + 1 + 1) = (Function.update (mst s ζ (t + 1)).1 (s (mst s ζ (t + 1)).2) ((mst s ζ (t + 1)).1 (s (mst s ζ (t + 1)).2) + 1),
      (mst s ζ (t + 1)).2 ++ [ζ (s (mst s ζ (t + 1)).2, (mst s ζ (t + 1)).1 (s (mst s ζ (t + 1)).2))]) := rfl
    have e2 : mst (fun h => s (x :: h)) η (t + 1) = (Function.update (mst (fun h => s (x :: h)) η t).1 (s (x :: (mst (fun h => s (x :: h)) η t).2)) ((mst (fun h => s (x :: h)) η t).1 (s (x :: (mst (fun h => s (x :: h)) η t).2)) + 1),
      (mst (fun h => s (x :: h)) η t).2 ++ [η (s (x :: (mst (fun h => s (x :: h)) η t).2), (mst (fun h => s (x :: h)) η t).1 (s (x :: (mst (fun h => s (x :: h)) η t).2)))]) := rfl
    rw [e1, e2, ih]
    generalize mst (fun h => s (x :: h)) η t = q
    dsimp only
    refine Prod.ext (funext fun i => ?_) ?_
    · dsimp only
      by_cases h : i = s (x :: q.2)
      · rw [h, Function.update_self, Function.update_self]; omega
      · rw [Function.update_of_ne h, Function.update_of_ne h]
    · dsimp only
      rw [hsu, List.cons_append]

omit [MeasurableSpace Ω] in
theorem merge_peel (x : Ω) (η : ι × ℕ → Ω) :
    merge s (ins (s [], 0) (fun p => (p.1, if p.1 = s [] then p.2 + 1 else p.2)) (x, η)) 0 = x ∧
    ∀ t, merge s (ins (s [], 0) (fun p => (p.1, if p.1 = s [] then p.2 + 1 else p.2)) (x, η)) (t + 1) = merge (fun h => s (x :: h)) η t := by
  constructor
  · change ins _ _ _ (s [], 0) = x
    exact ins_zero _ _ _
  · intro t
    have h1 := mst_peel s x η (t + 1)
    have h2 := congrArg (fun q => q.2) h1
    dsimp only at h2
    have a1 : ∀ (s : List Ω → ι) (η : ι × ℕ → Ω) (t : ℕ), (mst s η (t + 1)).2 = (mst s η t).2 ++ [merge s η t] := fun s η t => rfl
    rw [a1 s _ (t + 1), a1 (fun h => s (x :: h)) η t, mst_peel s x η t] at h2
    dsimp only at h2
    rw [← List.cons_append] at h2
    have := List.append_inj_right h2 rfl
    simpa using this

end sched

section law
variable [DecidableEq ι] [Countable ι] [MeasurableSpace ι] [DiscreteMeasurableSpace ι] (s : List Ω → ι)

/-- the decisions of the schedule depend measurably on the past -/
def SchedMeas : Prop := ∀ t, Measurable fun ω : ℕ → Ω => s (past ω t)

variable {s} (hs : SchedMeas s)
include hs

theorem SchedMeas.peel (x : Ω) : SchedMeas fun h => s (x :: h) := by
  intro t
  have h1 : Measurable fun ω : ℕ → Ω => front (x, ω) := front_measurable.comp (measurable_const.prodMk measurable_id)
  have h2 := (hs (t + 1)).comp h1
  refine (congrArg Measurable (funext fun ω => ?_)).mpr h2
  simp only [Function.comp, past]
  rw [List.range_succ_eq_map, List.map_cons, List.map_map]
  rfl

theorem given_measurable (i : ι) (t : ℕ) : Measurable fun ω : ℕ → Ω => given s ω i t := by
  have e : (fun ω : ℕ → Ω => given s ω i t) = fun ω => ∑ u ∈ Finset.range t, if s (past ω u) = i then 1 else 0 := by
    funext ω; rw [given, Finset.card_filter]
  rw [e]
  exact Finset.measurable_fun_sum _ fun u _ => Measurable.ite ((hs u) (MeasurableSet.of_discrete (s := {i}))) measurable_const measurable_const

theorem isNth_measurable (i : ι) (k t : ℕ) : MeasurableSet {ω : ℕ → Ω | isNth s ω i k t} := by
  have e : {ω : ℕ → Ω | isNth s ω i k t} = (fun ω : ℕ → Ω => s (past ω t)) ⁻¹' {i} ∩ (fun ω : ℕ → Ω => given s ω i t) ⁻¹' {k} := rfl
  rw [e]
  exact ((hs t) MeasurableSet.of_discrete).inter ((given_measurable hs i t) MeasurableSet.of_discrete)

theorem seen_measurable (pad : Ω) (i : ι) (k : ℕ) : Measurable fun ω : ℕ → Ω => seen s pad ω i k := by
  intro B hB
  have e : (fun ω : ℕ → Ω => seen s pad ω i k) ⁻¹' B = (⋃ t, {ω | isNth s ω i k t} ∩ (fun ω => ω t) ⁻¹' B) ∪ ((⋃ t, {ω | isNth s ω i k t})ᶜ ∩ {_ω | pad ∈ B}) := by
    ext ω
    simp only [Set.mem_preimage, Set.mem_union, Set.mem_iUnion, Set.mem_inter_iff, Set.mem_compl_iff, Set.mem_ofPred_eq]
    by_cases h : ∃ t, isNth s ω i k t
    · have h1 : seen s pad ω i k = ω h.choose := by simp only [seen, dif_pos h]
      rw [h1]
      constructor
      · intro h2; exact Or.inl ⟨_, h.choose_spec, h2⟩
      · rintro (⟨t, h2, h3⟩ | ⟨h2, -⟩)
        · rwa [isNth_unique s ω i k _ _ h.choose_spec h2]
        · exact absurd h h2
    · have h1 : seen s pad ω i k = pad := by simp only [seen, dif_neg h]
      rw [h1]
      constructor
      · intro h2; exact Or.inr ⟨h, h2⟩
      · rintro (⟨t, h2, -⟩ | ⟨-, h2⟩)
        · exact absurd ⟨t, h2⟩ h
        · exact h2
  rw [e]
  refine (MeasurableSet.iUnion fun t => (isNth_measurable hs i k t).inter ((measurable_pi_apply t) hB)).union ?_
  exact (MeasurableSet.iUnion fun t => isNth_measurable hs i k t).compl.inter (MeasurableSet.const _)

theorem merge_measurable : Measurable (merge s : (ι × ℕ → Ω) → ℕ → Ω) := by
  refine measurable_pi_iff.mpr fun t => ?_
  induction t using Nat.strong_induction_on with
  | _ t ih =>
    have hdec : ∀ u ≤ t, Measurable fun η : ι × ℕ → Ω => s (past (merge s η) u) := by
      intro u hu
      have h1 : Measurable fun η : ι × ℕ → Ω => (fun k : ℕ => if k < t then merge s η k else η (s [], 0)) := by
        refine measurable_pi_iff.mpr fun k => ?_
        by_cases hk : k < t
        · simp only [if_pos hk]; exact ih k hk
        · simp only [if_neg hk]; exact measurable_pi_apply _
      refine (congrArg Measurable (funext fun η => ?_)).mpr ((hs u).comp h1)
      simp only [Function.comp, past]
      congr 1
      refine List.map_congr_left fun k hk => ?_
      rw [if_pos (by have := List.mem_range.mp hk; omega)]
    have hg : ∀ i, Measurable fun η : ι × ℕ → Ω => given s (merge s η) i t := by
      intro i
      have e : (fun η : ι × ℕ → Ω => given s (merge s η) i t) = fun η => ∑ u ∈ Finset.range t, if s (past (merge s η) u) = i then 1 else 0 := by
        funext ω; rw [given, Finset.card_filter]
      rw [e]
      exact Finset.measurable_fun_sum _ fun u hu => Measurable.ite ((hdec u (Finset.mem_range.mp hu).le) (MeasurableSet.of_discrete (s := {i}))) measurable_const measurable_const
    intro B hB
    have e : (fun η : ι × ℕ → Ω => merge s η t) ⁻¹' B = ⋃ i : ι, ⋃ k : ℕ, ((fun η : ι × ℕ → Ω => s (past (merge s η) t)) ⁻¹' {i} ∩ (fun η : ι × ℕ → Ω => given s (merge s η) i t) ⁻¹' {k}) ∩ (fun η => η (i, k)) ⁻¹' B := by
      ext η
      simp only [Set.mem_preimage, Set.mem_iUnion, Set.mem_inter_iff, Set.mem_singleton_iff]
      constructor
      · intro h
        refine ⟨_, _, ⟨rfl, rfl⟩, ?_⟩
        rwa [← merge_nth s η _ _ t ⟨rfl, rfl⟩]
      · rintro ⟨i, k, h1, h2⟩
        rwa [merge_nth s η i k t h1]
    rw [e]
    exact MeasurableSet.iUnion fun i => MeasurableSet.iUnion fun k => (((hdec t le_rfl) MeasurableSet.of_discrete).inter ((hg i) MeasurableSet.of_discrete)).inter ((measurable_pi_apply (i, k)) hB)

omit hs in
theorem merge_box (n : ℕ) : ∀ (s : List Ω → ι), SchedMeas s → ∀ B : ℕ → Set Ω, (∀ t, MeasurableSet (B t)) →
    (infinitePi fun _ : ι × ℕ => P) {η | ∀ t < n, merge s η t ∈ B t} = ∏ t ∈ Finset.range n, P (B t) := by
  induction n with
  | zero => intro s hs B hB; simp
  | succ n ih =>
    intro s hs B hB
    have hinj : Function.Injective fun p : ι × ℕ => ((p.1, if p.1 = s [] then p.2 + 1 else p.2) : ι × ℕ) := by
      rintro ⟨i, k⟩ ⟨j, l⟩ h
      simp only [Prod.mk.injEq] at h
      obtain ⟨rfl, h⟩ := h
      split_ifs at h
      · simp only [Prod.mk.injEq, true_and]; omega
      · simp [h]
    have hne : ∀ p : ι × ℕ, ((p.1, if p.1 = s [] then p.2 + 1 else p.2) : ι × ℕ) ≠ (s [], 0) := by
      rintro ⟨i, k⟩ h
      simp only [Prod.mk.injEq] at h
      obtain ⟨h1, h2⟩ := h
      rw [if_pos h1] at h2
      omega
    have hcov : ∀ j : ι × ℕ, j = (s [], 0) ∨ ∃ p : ι × ℕ, ((p.1, if p.1 = s [] then p.2 + 1 else p.2) : ι × ℕ) = j := by
      rintro ⟨i, k⟩
      by_cases h : i = s []
      · cases k with
        | zero => left; rw [h]
        | succ k => right; exact ⟨(i, k), by simp [h]⟩
      · right; exact ⟨(i, k), by simp [h]⟩
    have hp := ins_preserving P ((s [], 0) : ι × ℕ) _ hinj hne hcov
    have hE : MeasurableSet {η : ι × ℕ → Ω | ∀ t < n + 1, merge s η t ∈ B t} := by
      have : {η : ι × ℕ → Ω | ∀ t < n + 1, merge s η t ∈ B t} = ⋂ t, ⋂ (_ : t < n + 1), (fun η => merge s η t) ⁻¹' B t := by ext η; simp
      rw [this]
      exact MeasurableSet.iInter fun t => MeasurableSet.iInter fun _ => (measurable_pi_iff.mp (merge_measurable hs) t) (hB t)
    rw [← hp.measure_preimage hE.nullMeasurableSet, Measure.prod_apply (hp.measurable hE)]
    have hsec : ∀ x, (infinitePi fun _ : ι × ℕ => P) (Prod.mk x ⁻¹' (ins (s [], 0) (fun p : ι × ℕ => ((p.1, if p.1 = s [] then p.2 + 1 else p.2) : ι × ℕ)) ⁻¹' {η | ∀ t < n + 1, merge s η t ∈ B t})) =
        (B 0).indicator (fun _ => ∏ t ∈ Finset.range n, P (B (t + 1))) x := by
      intro x
      obtain ⟨h0, h1⟩ := And.intro (fun η => (merge_peel s x η).1) (fun η => (merge_peel s x η).2)
      by_cases hx : x ∈ B 0
      · rw [Set.indicator_of_mem hx, ← ih _ (hs.peel x) (fun t => B (t + 1)) fun t => hB (t + 1)]
        congr 1
        ext η
        simp only [Set.mem_preimage, Set.mem_ofPred_eq]
        constructor
        · intro h t ht
          rw [← h1]
          exact h (t + 1) (by omega)
        · intro h t ht
          cases t with
          | zero => rw [h0]; exact hx
          | succ t => rw [h1]; exact h t (by omega)
      · rw [Set.indicator_of_notMem hx]
        refine (congrArg _ (Set.eq_empty_of_forall_notMem fun η h => ?_)).trans measure_empty
        have := h 0 (by omega)
        rw [h0] at this
        exact hx this
    simp only [hsec]
    rw [lintegral_indicator (hB 0), setLIntegral_const, Finset.prod_range_succ', mul_comm]

/-- the interleaved stream consists of independent elements, too -/
theorem merge_preserving : MeasurePreserving (merge s) (infinitePi fun _ : ι × ℕ => P) (infinitePi fun _ : ℕ => P) := by
  classical
  refine ⟨merge_measurable hs, eq_infinitePi (μ := fun _ : ℕ => P) fun S B hB => ?_⟩
  rw [Measure.map_apply (merge_measurable hs) (MeasurableSet.pi S.countable_toSet fun i _ => hB i)]
  obtain ⟨n, hn⟩ : ∃ n, ∀ t ∈ S, t < n := ⟨S.sup id + 1, fun t ht => Nat.lt_succ_of_le (Finset.le_sup (f := id) ht)⟩
  have h := merge_box P n s hs (fun t => if t ∈ S then B t else Set.univ) fun t => by split_ifs <;> [exact hB t; exact MeasurableSet.univ]
  have e1 : merge s ⁻¹' Set.pi S B = {η | ∀ t < n, merge s η t ∈ (if t ∈ S then B t else Set.univ)} := by
    ext η
    simp only [Set.mem_preimage, Set.mem_pi, Set.mem_ofPred_eq, Finset.mem_coe]
    constructor
    · intro h t _
      split_ifs with h2
      · exact h t h2
      · exact Set.mem_univ _
    · intro h t ht
      have := h t (hn t ht)
      rwa [if_pos ht] at this
  rw [e1, h]
  have e2 : ∏ t ∈ Finset.range n, P (if t ∈ S then B t else Set.univ) = ∏ t ∈ Finset.range n, if t ∈ S then P (B t) else 1 :=
    Finset.prod_congr rfl fun t _ => by split_ifs <;> simp
  rw [e2, ← Finset.prod_filter]
  refine Finset.prod_congr ?_ fun _ _ => rfl
  ext t
  simp only [Finset.mem_filter, Finset.mem_range]
  exact ⟨fun h => h.2, fun h => ⟨hn t h, h⟩⟩

/-- **Several tasks with one generator.**  Task `i` succeeds on the streams in `A i`, and the schedule gives each task as many elements as decide whether it succeeds.  Then the probability that all tasks succeed is the product
of the probabilities that each one succeeds on a stream of its own, for every schedule. -/
theorem shared_stream [Fintype ι] (pad : Ω) (U : Set Ω) (hU : MeasurableSet U) (hU1 : P Uᶜ = 0) (hpad : pad ∈ U) (A A' : ι → Set (ℕ → Ω)) (hA' : ∀ i, MeasurableSet (A' i))
    (hAA : ∀ i ω, (∀ k, ω k ∈ U) → (ω ∈ A i ↔ ω ∈ A' i))
    (hfair : ∀ᵐ ω ∂(infinitePi fun _ : ℕ => P), ∀ i (ζ : ℕ → Ω), (∀ k, (∃ t, isNth s ω i k t) → ζ k = seen s pad ω i k) → (ζ ∈ A i ↔ seen s pad ω i ∈ A i)) :
    (infinitePi fun _ : ℕ => P).real {ω | ∀ i, seen s pad ω i ∈ A i} = ∏ i, (infinitePi fun _ : ℕ => P).real (A i) := by
  classical
  have hUae : ∀ᵐ ω ∂(infinitePi fun _ : ℕ => P), ∀ k, ω k ∈ U := by
    rw [ae_all_iff]
    intro k
    have h1 : ∀ᵐ x ∂P, x ∈ U := by rw [ae_iff]; exact hU1
    exact (measurePreserving_eval_infinitePi (fun _ : ℕ => P) k).quasiMeasurePreserving.ae h1
  have hseenU : ∀ ω : ℕ → Ω, (∀ k, ω k ∈ U) → ∀ i k, seen s pad ω i k ∈ U := by
    intro ω hω i k
    unfold seen
    split_ifs
    · exact hω _
    · exact hpad
  -- replace the events by measurable ones
  have hE : {ω : ℕ → Ω | ∀ i, seen s pad ω i ∈ A i} =ᵐ[infinitePi fun _ : ℕ => P] {ω | ∀ i, seen s pad ω i ∈ A' i} := by
    filter_upwards [hUae] with ω hω
    exact propext (forall_congr' fun i => hAA i _ (hseenU ω hω i))
  have hAe : ∀ i, (infinitePi fun _ : ℕ => P).real (A i) = (infinitePi fun _ : ℕ => P).real (A' i) := fun i => measureReal_congr (by
    filter_upwards [hUae] with ω hω
    exact propext (hAA i ω hω))
  have hEm : MeasurableSet {ω : ℕ → Ω | ∀ i, seen s pad ω i ∈ A' i} := by
    have : {ω : ℕ → Ω | ∀ i, seen s pad ω i ∈ A' i} = ⋂ i, (fun ω => seen s pad ω i) ⁻¹' A' i := by ext ω; simp
    rw [this]
    exact MeasurableSet.iInter fun i => (measurable_pi_iff.mpr fun k => seen_measurable hs pad i k) (hA' i)
  have hm := merge_preserving P hs
  rw [measureReal_congr hE, measureReal_def, ← hm.measure_preimage hEm.nullMeasurableSet]
  -- the streams of the tasks
  have hcur := infinitePi_map_curry (ι := ι) (κ := ℕ) (μ := fun _ _ => P)
  have hbox : (infinitePi fun _ : ι × ℕ => P) {η | ∀ i, (fun k => η (i, k)) ∈ A' i} = ∏ i, (infinitePi fun _ : ℕ => P) (A' i) := by
    have h1 : (infinitePi fun _ : ι => infinitePi fun _ : ℕ => P) (Set.pi Set.univ A') = ∏ i, (infinitePi fun _ : ℕ => P) (A' i) := by
      have := infinitePi_pi (μ := fun _ : ι => infinitePi fun _ : ℕ => P) (s := Finset.univ) (t := A') fun i _ => hA' i
      rwa [Finset.coe_univ] at this
    rw [← h1, ← hcur, Measure.map_apply (MeasurableEquiv.measurable _) (MeasurableSet.univ_pi hA')]
    congr 1
    ext η
    simp only [Set.mem_ofPred_eq, Set.mem_preimage, Set.mem_pi, Set.mem_univ, true_implies]
    rfl
  have hfin : (infinitePi fun _ : ι × ℕ => P) (merge s ⁻¹' {ω | ∀ i, seen s pad ω i ∈ A' i}) = (infinitePi fun _ : ι × ℕ => P) {η | ∀ i, (fun k => η (i, k)) ∈ A' i} := by
    refine measure_congr ?_
    have hf := hm.quasiMeasurePreserving.ae hfair
    have hUm := hm.quasiMeasurePreserving.ae hUae
    have hUη : ∀ᵐ η ∂(infinitePi fun _ : ι × ℕ => P), ∀ p, η p ∈ U := by
      rw [ae_all_iff]
      intro p
      have h1 : ∀ᵐ x ∂P, x ∈ U := by rw [ae_iff]; exact hU1
      exact (measurePreserving_eval_infinitePi (fun _ : ι × ℕ => P) p).quasiMeasurePreserving.ae h1
    filter_upwards [hf, hUm, hUη] with η h1 h2 h3
    refine propext (forall_congr' fun i => ?_)
    rw [← hAA i _ (hseenU _ h2 i), ← hAA i _ fun k => h3 (i, k)]
    exact (h1 i (fun k => η (i, k)) fun k hk => (seen_merge s pad η i k hk).symm).symm
  rw [hfin, hbox, ENNReal.toReal_prod]
  exact Finset.prod_congr rfl fun i _ => (hAe i).symm

end law

section fair
variable {Ω ι : Type*} [DecidableEq ι]

/-- a schedule that turns to a task again and again gives it its whole stream -/
theorem isNth_of_fair (s : List Ω → ι) (ω : ℕ → Ω) (i : ι) (h : ∀ t, ∃ t' ≥ t, s (past ω t') = i) (k : ℕ) : ∃ t, isNth s ω i k t := by
  have hinf : (setOf fun t => s (past ω t) = i).Infinite := by
    rw [Set.infinite_iff_exists_gt]
    intro t
    obtain ⟨t', h1, h2⟩ := h (t + 1)
    exact ⟨t', h2, by omega⟩
  refine ⟨Nat.nth (fun t => s (past ω t) = i) k, Nat.nth_mem_of_infinite hinf k, ?_⟩
  have := Nat.count_nth_of_infinite hinf k
  rw [Nat.count_eq_card_filter_range] at this
  exact this

theorem seen_of_fair (s : List Ω → ι) (pad : Ω) (ω : ℕ → Ω) (i : ι) (h : ∀ t, ∃ t' ≥ t, s (past ω t') = i) (ζ : ℕ → Ω) (hζ : ∀ k, (∃ t, isNth s ω i k t) → ζ k = seen s pad ω i k) :
    ζ = seen s pad ω i := funext fun k => hζ k (isNth_of_fair s ω i h k)

/-- the tasks take turns -/
def roundRobin (K : ℕ) [NeZero K] : List Ω → Fin K := fun h => Fin.ofNat K h.length

theorem roundRobin_fair {K : ℕ} [NeZero K] (ω : ℕ → Ω) (i : Fin K) (t : ℕ) : ∃ t' ≥ t, roundRobin K (past ω t') = i := by
  refine ⟨K * t + i, ?_, ?_⟩
  · nlinarith [Nat.pos_of_ne_zero (NeZero.ne K), Nat.zero_le t]
  · refine Fin.ext ?_
    simp [roundRobin, past, Fin.ofNat, Nat.mod_eq_of_lt i.2]

theorem roundRobin_measurable [MeasurableSpace Ω] {K : ℕ} [NeZero K] : SchedMeas (roundRobin K : List Ω → Fin K) := by
  intro t
  have : (fun ω : ℕ → Ω => (roundRobin K (past ω t) : Fin K)) = fun _ => Fin.ofNat K t := by
    funext ω
    simp [roundRobin, past]
  rw [this]
  exact measurable_const

end fair

end Verif.Lemmas.Rej
