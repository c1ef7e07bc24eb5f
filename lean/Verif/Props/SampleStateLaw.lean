/-
C95: the rows that `hafnian_sample_state` returns are independent samples of the photon-number distribution, conditioned on acceptance.
-/
import Verif.Props.HafnianSamplerLaw
import Verif.Props.Tvd
import Verif.Lemmas.Rejection

set_option linter.style.longLine false
set_option linter.unusedSectionVars false
set_option linter.unusedSimpArgs false

namespace Verif.Props
open Verif.Model Verif.Model.Symp Verif.Model.Conv Verif.Model.Means Verif.Model.Smp Verif.Model.Dec Verif.Model.Checks Verif.Spec Verif.Lemmas Verif.Lemmas.Symp
  Verif.Lemmas.FockS Verif.Lemmas.Outc Verif.Lemmas.Chain Verif.Lemmas.GInt Verif.Lemmas.Rej Matrix MeasureTheory

/-! ### The loop -/

/-- the `while` loop of the samplers in terms of its rounds -/
theorem collect_rounds {Ω X : Type*} (gen : Rand (Option (List ℕ))) (L : ℕ) (ω : ℕ → Ω) (A : X → Set Ω) (R : Set Ω) (f : X → List ℕ)
    (hs : ∀ j l k, gen (j * L) = .ok (some l, k) ↔ k = (j + 1) * L ∧ ∃ x, l = f x ∧ ω j ∈ A x) (hn : ∀ j k, gen (j * L) = .ok (none, k) ↔ k = (j + 1) * L ∧ ω j ∈ R)
    (fuel : ℕ) : ∀ (j n : ℕ) (acc rows : List (List ℕ)), (∃ k, collect gen fuel n acc (j * L) = .ok (rows, k)) ↔
      ∃ xs : List X, xs.length = n ∧ rows = acc ++ xs.map f ∧ (fun i => ω (j + i)) ∈ runs A R fuel xs := by
  have hpure : ∀ (j : ℕ) (acc rows : List (List ℕ)) (fuel : ℕ), (∃ k, (pure acc : Rand (List (List ℕ))) (j * L) = .ok (rows, k)) ↔
      ∃ xs : List X, xs.length = 0 ∧ rows = acc ++ xs.map f ∧ (fun i => ω (j + i)) ∈ runs A R fuel xs := fun j acc rows fuel => by
    change (∃ k, Except.ok (acc, j * L) = Except.ok (rows, k)) ↔ _
    simp only [Except.ok.injEq, Prod.mk.injEq, exists_and_left, exists_eq', and_true, List.length_eq_zero_iff]
    constructor
    · rintro rfl
      exact ⟨[], rfl, by simp, by rw [runs_nil]; trivial⟩
    · rintro ⟨_, rfl, h, -⟩
      simpa using h.symm
  induction fuel with
  | zero =>
    intro j n acc rows
    unfold collect
    by_cases h0 : n = 0
    · subst h0
      rw [if_pos rfl]
      exact hpure j acc rows 0
    · rw [if_neg h0]
      constructor
      · rintro ⟨k, hk⟩
        exact absurd hk (by simp [raise])
      · rintro ⟨xs, hl, -, hr⟩
        cases xs with
        | nil => exact absurd hl.symm h0
        | cons x xs => exact absurd hr (Set.notMem_empty _)
  | succ fuel ih =>
    intro j n acc rows
    unfold collect
    by_cases h0 : n = 0
    · subst h0
      rw [if_pos rfl]
      exact hpure j acc rows (fuel + 1)
    rw [if_neg h0]
    have hshift : (fun i => ω (j + (i + 1))) = fun i => ω (j + 1 + i) := funext fun i => by rw [add_right_comm, add_assoc]
    have hb : ∀ k, ((do
        let r ← gen
        match r with
        | some x => collect gen fuel (n - 1) (acc ++ [x])
        | none => collect gen fuel n acc : Rand (List (List ℕ))) (j * L) = .ok (rows, k)) ↔
        ∃ r k', gen (j * L) = .ok (r, k') ∧ (match r with
        | some x => collect gen fuel (n - 1) (acc ++ [x])
        | none => collect gen fuel n acc : Rand (List (List ℕ))) k' = .ok (rows, k) := fun k => by
      change (gen (j * L)).bind (fun p => (match p.1 with
        | some x => collect gen fuel (n - 1) (acc ++ [x])
        | none => collect gen fuel n acc : Rand (List (List ℕ))) p.2) = _ ↔ _
      cases hg : gen (j * L) with
      | error e => simp [Except.bind]
      | ok p =>
        constructor
        · intro h
          exact ⟨p.1, p.2, rfl, h⟩
        · rintro ⟨r, k', h1, h2⟩
          obtain rfl : p = (r, k') := by injection h1
          exact h2
    refine (exists_congr hb).trans ?_
    constructor
    · rintro ⟨k, r, k', h1, h2⟩
      cases r with
      | some l =>
        obtain ⟨rfl, x, rfl, hx⟩ := (hs j l k').mp h1
        obtain ⟨xs, hl, rfl, hr⟩ := (ih (j + 1) (n - 1) _ rows).mp ⟨k, h2⟩
        refine ⟨x :: xs, by simp; omega, by simp, Or.inl ⟨by simpa using hx, ?_⟩⟩
        rw [hshift]
        exact hr
      | none =>
        obtain ⟨rfl, hx⟩ := (hn j k').mp h1
        obtain ⟨xs, hl, rfl, hr⟩ := (ih (j + 1) n _ rows).mp ⟨k, h2⟩
        refine ⟨xs, hl, rfl, ?_⟩
        cases xs with
        | nil => exact absurd hl.symm h0
        | cons x xs =>
          refine Or.inr ⟨by simpa using hx, ?_⟩
          rw [hshift]
          exact hr
    · rintro ⟨xs, hl, rfl, hr⟩
      cases xs with
      | nil => exact absurd hl.symm h0
      | cons x xs =>
        simp only [List.length_cons] at hl
        rcases hr with ⟨hx, hr⟩ | ⟨hx, hr⟩
        · rw [hshift] at hr
          obtain ⟨k, hk⟩ := (ih (j + 1) (n - 1) (acc ++ [f x]) _).mpr ⟨xs, by omega, rfl, hr⟩
          refine ⟨k, some (f x), (j + 1) * L, (hs j _ _).mpr ⟨rfl, x, rfl, by simpa using hx⟩, ?_⟩
          simpa using hk
        · rw [hshift] at hr
          obtain ⟨k, hk⟩ := (ih (j + 1) n acc _).mpr ⟨x :: xs, by simpa using hl, rfl, hr⟩
          exact ⟨k, none, (j + 1) * L, (hn j _).mpr ⟨rfl, by simpa using hx⟩, hk⟩

/-! ### The random numbers of a run -/

/-- the random numbers of one round -/
abbrev RoundDraws (M : ℕ) := (Fin (2 * M) → ℝ) × (Fin (2 * M) → ℝ) × (Fin M → ℝ)

/-- The library with given random numbers for a whole run: every round of the loop makes `M + 2` calls to the generator, two for vectors of normal numbers and one for the photon number
of each of the `M` modes. -/
noncomputable def withStream (lib : Lib) {M : ℕ} (ω : ℕ → RoundDraws M) : Lib :=
  { lib with
    normal := fun k => if k % (M + 2) = 0 then seq (ω (k / (M + 2))).1 else seq (ω (k / (M + 2))).2.1
    uniform := fun k => seq (ω (k / (M + 2))).2.2 (k % (M + 2) - 2) }

/-- The law of the random numbers of a run: independent standard normal and uniform numbers. -/
noncomputable def streamLaw (M : ℕ) : Measure (ℕ → RoundDraws M) := Measure.infinitePi fun _ => drawLaw M

section shift
variable {M : ℕ} (lib₁ lib₂ : Lib) (htol : lib₁.tol = lib₂.tol) (ρ : (Fin M → ℕ) → (Fin M → ℕ) → ℂ) (α : ℕ → ℂ) (cutoff c : ℕ)
include htol

theorem choose_shift (ps : List ℝ) (k : ℕ) (hu : lib₁.uniform (c + k) = lib₂.uniform k) :
    chooseNormalised lib₁ cutoff ps (c + k) = (chooseNormalised lib₂ cutoff ps k).map fun p => (p.1, c + p.2) := by
  unfold chooseNormalised
  split_ifs
  · rfl
  · unfold choice
    rw [htol, hu]
    by_cases h : cutoff + 1 = 0 ∨ (List.map (fun x => x / ps.sum) ps).length ≠ cutoff + 1 ∨ (∃ x ∈ List.map (fun x => x / ps.sum) ps, x < 0) ∨ lib₂.tol < |(List.map (fun x => x / ps.sum) ps).sum - 1|
    · rw [if_pos h, if_pos h]; rfl
    · rw [if_neg h, if_neg h]; rfl

omit htol in
theorem choose_count (ps : List ℝ) (k : ℕ) {r : ℕ} {k' : ℕ} (h : chooseNormalised lib₁ cutoff ps k = .ok (r, k')) : k' = k + 1 := by
  unfold chooseNormalised choice raise at h
  split_ifs at h
  · injection h with h; exact (congrArg Prod.snd h).symm

theorem bornStep_run (lib : Lib) (n : ℕ → ℕ) (mode k : ℕ) : bornStep lib ρ α cutoff n mode k =
    (chooseNormalised lib cutoff ((List.range (cutoff + 1)).map fun k => outcomeDensity ρ (mode + 1) (Function.update n mode k) α) k).map fun p => (Function.update n mode p.1, p.2) := by
  change (chooseNormalised lib cutoff _ k).bind _ = _
  cases chooseNormalised lib cutoff ((List.range (cutoff + 1)).map fun k => outcomeDensity ρ (mode + 1) (Function.update n mode k) α) k with
  | error e => rfl
  | ok p => rfl

theorem bornFold_shift (l : List ℕ) : ∀ (n : ℕ → ℕ) (k : ℕ), (∀ i < l.length, lib₁.uniform (c + (k + i)) = lib₂.uniform (k + i)) →
    l.foldlM (bornStep lib₁ ρ α cutoff) n (c + k) = (l.foldlM (bornStep lib₂ ρ α cutoff) n k).map fun p => (p.1, c + p.2) := by
  induction l with
  | nil => intro n k _; rfl
  | cons x l ih =>
    intro n k hu
    have h0 := hu 0 (by simp)
    rw [add_zero] at h0
    rw [List.foldlM_cons, List.foldlM_cons]
    change (bornStep lib₁ ρ α cutoff n x (c + k)).bind _ = ((bornStep lib₂ ρ α cutoff n x k).bind _).map _
    rw [bornStep_run (lib₁ := lib₁) (lib₂ := lib₂) htol, bornStep_run (lib₁ := lib₁) (lib₂ := lib₂) htol, choose_shift lib₁ lib₂ htol cutoff c _ k h0]
    cases hc : chooseNormalised lib₂ cutoff ((List.range (cutoff + 1)).map fun k => outcomeDensity ρ (x + 1) (Function.update n x k) α) k with
    | error e => rfl
    | ok p =>
      have hk := choose_count lib₂ cutoff _ _ hc
      obtain ⟨r, k'⟩ := p
      subst hk
      exact ih (Function.update n x r) (k + 1) fun i hi => by
        have := hu (i + 1) (by simp; omega)
        rwa [show k + (i + 1) = k + 1 + i by omega] at this

theorem bornFold_count (l : List ℕ) : ∀ (n : ℕ → ℕ) (k : ℕ) (n' : ℕ → ℕ) (k' : ℕ), l.foldlM (bornStep lib₁ ρ α cutoff) n k = .ok (n', k') → k' = k + l.length := by
  induction l with
  | nil =>
    intro n k n' k' h
    change Except.ok (n, k) = Except.ok (n', k') at h
    injection h with h
    exact (congrArg Prod.snd h).symm
  | cons x l ih =>
    intro n k n' k' h
    rw [List.foldlM_cons] at h
    change (bornStep lib₁ ρ α cutoff n x k).bind _ = _ at h
    rw [bornStep_run (lib₁ := lib₁) (lib₂ := lib₂) htol] at h
    cases hc : chooseNormalised lib₁ cutoff ((List.range (cutoff + 1)).map fun k => outcomeDensity ρ (x + 1) (Function.update n x k) α) k with
    | error e => rw [hc] at h; exact absurd h (by simp [Except.map, Except.bind])
    | ok p =>
      have hk := choose_count lib₁ cutoff _ _ hc
      rw [hc] at h
      have := ih _ _ _ _ h
      simp only [List.length_cons]
      omega

end shift

theorem bornSampler_shift {M : ℕ} (lib₁ lib₂ : Lib) (htol : lib₁.tol = lib₂.tol) (mu : ℕ → ℝ) (W C : RArr) (ρ : (ℕ → ℝ) → (Fin M → ℕ) → (Fin M → ℕ) → ℂ) (inv : List ℕ) (cutoff maxPhotons c : ℕ)
    (h0 : lib₁.normal c = lib₂.normal 0) (h1 : lib₁.normal (c + 1) = lib₂.normal 1) (hu : ∀ i < M, lib₁.uniform (c + (2 + i)) = lib₂.uniform (2 + i)) (r : Option (List ℕ)) (k : ℕ) :
    bornSampler lib₁ mu W C ρ inv cutoff maxPhotons c = .ok (r, k) ↔ k = c + (M + 2) ∧ ∃ k', bornSampler lib₂ mu W C ρ inv cutoff maxPhotons 0 = .ok (r, k') := by
  have hrun : ∀ (lib : Lib) (c : ℕ), bornSampler lib mu W C ρ inv cutoff maxPhotons c =
      ((List.range M).foldlM (bornStep lib (ρ (meanAt M mu W (lib.normal c))) (hetAt M (meanAt M mu W (lib.normal c)) C (lib.normal (c + 1))) cutoff) (fun _ => 0) (c + 2)).bind
        (fun x => (if (inv.map x.1).getLastD 0 = cutoff then pure none else if maxPhotons < (inv.map x.1).sum then pure none else pure (some (inv.map x.1)) : Rand (Option (List ℕ))) x.2) := fun lib c => rfl
  have hfin : ∀ (n : ℕ → ℕ) (k : ℕ), ∃ r, ∀ k, (if (inv.map n).getLastD 0 = cutoff then pure none else if maxPhotons < (inv.map n).sum then pure none else pure (some (inv.map n)) : Rand (Option (List ℕ))) k = Except.ok (r, k) := fun n k => by
    split_ifs
    · exact ⟨none, fun _ => rfl⟩
    · exact ⟨none, fun _ => rfl⟩
    · exact ⟨some (inv.map n), fun _ => rfl⟩
  rw [hrun lib₁ c, hrun lib₂ 0, h0, h1, bornFold_shift lib₁ lib₂ htol _ _ cutoff c (List.range M) _ 2 fun i hi => hu i (by simpa using hi)]
  cases hf : (List.range M).foldlM (bornStep lib₂ (ρ (meanAt M mu W (lib₂.normal 0))) (hetAt M (meanAt M mu W (lib₂.normal 0)) C (lib₂.normal 1)) cutoff) (fun _ => 0) 2 with
  | error e =>
    have hf' := hf
    rw [show (2 : ℕ) = 0 + 2 from rfl, show (1 : ℕ) = 0 + 1 from rfl] at hf'
    simp [Except.bind, Except.map]
  | ok p =>
    obtain ⟨n, k2⟩ := p
    have hk2 := bornFold_count lib₂ lib₂ rfl _ _ cutoff (List.range M) _ 2 _ _ hf
    rw [List.length_range] at hk2
    obtain ⟨r', hr'⟩ := hfin n 0
    change (if (inv.map n).getLastD 0 = cutoff then pure none else if maxPhotons < (inv.map n).sum then pure none else pure (some (inv.map n)) : Rand (Option (List ℕ))) (c + k2) = _ ↔
      k = c + (M + 2) ∧ ∃ k', (if (inv.map n).getLastD 0 = cutoff then pure none else if maxPhotons < (inv.map n).sum then pure none else pure (some (inv.map n)) : Rand (Option (List ℕ))) k2 = Except.ok (r, k')
    rw [hr', hr']
    simp only [Except.ok.injEq, Prod.mk.injEq]
    constructor
    · rintro ⟨rfl, rfl⟩; exact ⟨by omega, k2, rfl, rfl⟩
    · rintro ⟨rfl, k', rfl, rfl⟩; exact ⟨rfl, by omega⟩


theorem bornSampler_length {M : ℕ} (lib : Lib) (mu : ℕ → ℝ) (W C : RArr) (ρ : (ℕ → ℝ) → (Fin M → ℕ) → (Fin M → ℕ) → ℂ) (inv : List ℕ) (cutoff maxPhotons c : ℕ) {l : List ℕ} {k : ℕ}
    (h : bornSampler lib mu W C ρ inv cutoff maxPhotons c = .ok (some l, k)) : l.length = inv.length := by
  have hrun : bornSampler lib mu W C ρ inv cutoff maxPhotons c =
      ((List.range M).foldlM (bornStep lib (ρ (meanAt M mu W (lib.normal c))) (hetAt M (meanAt M mu W (lib.normal c)) C (lib.normal (c + 1))) cutoff) (fun _ => 0) (c + 2)).bind
        (fun x => (if (inv.map x.1).getLastD 0 = cutoff then pure none else if maxPhotons < (inv.map x.1).sum then pure none else pure (some (inv.map x.1)) : Rand (Option (List ℕ))) x.2) := rfl
  rw [hrun] at h
  cases hf : (List.range M).foldlM (bornStep lib (ρ (meanAt M mu W (lib.normal c))) (hetAt M (meanAt M mu W (lib.normal c)) C (lib.normal (c + 1))) cutoff) (fun _ => 0) (c + 2) with
  | error e => rw [hf] at h; exact absurd h (by simp [Except.bind])
  | ok p =>
    rw [hf] at h
    change (if (inv.map p.1).getLastD 0 = cutoff then pure none else if maxPhotons < (inv.map p.1).sum then pure none else pure (some (inv.map p.1)) : Rand (Option (List ℕ))) p.2 = _ at h
    split_ifs at h
    · exact absurd (show Except.ok ((none : Option (List ℕ)), p.2) = Except.ok (some l, k) from h) (by simp)
    · exact absurd (show Except.ok ((none : Option (List ℕ)), p.2) = Except.ok (some l, k) from h) (by simp)
    · have h' : Except.ok (some (inv.map p.1), p.2) = Except.ok (some l, k) := h
      simp only [Except.ok.injEq, Prod.mk.injEq, Option.some.injEq] at h'
      rw [← h'.1, List.length_map]

/-- a round of a run, with the random numbers that belong to it -/
theorem generate_round (lib : Lib) (hl : GoodSampler lib) (s : GState ℝ) (M : ℕ) (hM : M ≠ 0) (hs : s.len = 2 * M) (hph : Physical (phase M M s.cov) 2)
    (hsp : ∀ ν, SympSpectrum (phase M M s.cov) ν → ∀ i, ν i = 1 ∨ 1 + 1e-10 ≤ ν i) (cutoff : ℕ) (hc : 1 ≤ cutoff) (maxPhotons : ℕ) (ω : ℕ → RoundDraws M) (j : ℕ) (r : Option (List ℕ)) (k : ℕ) :
    (generateHafnianSample (withStream lib ω) s 2 cutoff maxPhotons (j * (M + 2)) = .ok (r, k) ↔
      k = (j + 1) * (M + 2) ∧ ∃ k', generateHafnianSample (withDraws lib (ω j).1 (ω j).2.1 (ω j).2.2) s 2 cutoff maxPhotons 0 = .ok (r, k')) ∧
    ∀ l, r = some l → generateHafnianSample (withStream lib ω) s 2 cutoff maxPhotons (j * (M + 2)) = .ok (r, k) → l.length = M := by
  obtain ⟨order, inv, means, r', T, W, C, -, -, -, hilen, -, -, -, hT, -, -, -, hrun⟩ := generateHafnianSample_born_all lib hl s M hM hs hph hsp cutoff hc maxPhotons
  have hex : ∀ mu, ∃ ρ, IsFockMatrix M mu T 2 ρ := fun mu => by
    obtain ⟨ρ, _, _, -, h, -⟩ := fock_gram (N := M) mu (by norm_num : (0 : ℝ) < 2) hT
    exact ⟨ρ, h⟩
  choose ρf hρf using hex
  have e1 : generateHafnianSample (withStream lib ω) s 2 cutoff maxPhotons = bornSampler (withStream lib ω) r'.mu W C ρf inv cutoff maxPhotons := hrun (withStream lib ω).normal (withStream lib ω).uniform ρf hρf
  have e2 : generateHafnianSample (withDraws lib (ω j).1 (ω j).2.1 (ω j).2.2) s 2 cutoff maxPhotons = bornSampler (withDraws lib (ω j).1 (ω j).2.1 (ω j).2.2) r'.mu W C ρf inv cutoff maxPhotons :=
    hrun (withDraws lib (ω j).1 (ω j).2.1 (ω j).2.2).normal (withDraws lib (ω j).1 (ω j).2.1 (ω j).2.2).uniform ρf hρf
  rw [e1, e2]
  refine ⟨?_, fun l hl h => ?_⟩
  · have hmod : ∀ i < M + 2, (j * (M + 2) + i) % (M + 2) = i := fun i hi => by rw [mul_comm, Nat.mul_add_mod, Nat.mod_eq_of_lt hi]
    have hdiv : ∀ i < M + 2, (j * (M + 2) + i) / (M + 2) = j := fun i hi => by
      rw [mul_comm, Nat.mul_add_div (by omega), Nat.div_eq_of_lt hi, add_zero]
    rw [bornSampler_shift (withStream lib ω) (withDraws lib (ω j).1 (ω j).2.1 (ω j).2.2) rfl r'.mu W C ρf inv cutoff maxPhotons (j * (M + 2)) ?_ ?_ ?_ r k, add_mul, one_mul]
    · have h1 := hmod 0 (by omega)
      have h2 := hdiv 0 (by omega)
      rw [add_zero] at h1 h2
      simp only [withStream, withDraws, h1, h2, if_true]
    · simp only [withStream, withDraws, hmod 1 (by omega), hdiv 1 (by omega), one_ne_zero, if_false]
    · intro i hi
      simp only [withStream, withDraws, hmod (2 + i) (by omega), hdiv (2 + i) (by omega)]
  · subst hl
    rw [bornSampler_length _ _ _ _ _ _ _ _ _ h, hilen]

/-! ### The law of the rows -/

/-- the patterns that the sampler accepts: at most `cutoff` photons in every mode, fewer than `cutoff` in the last one, at most `maxPhotons` in total -/
def accepted (M cutoff maxPhotons : ℕ) : Finset (Fin M → ℕ) :=
  (Fintype.piFinset fun _ : Fin M => Finset.range (cutoff + 1)).filter fun t => (∀ i : Fin M, (i : ℕ) + 1 = M → t i ≠ cutoff) ∧ ∑ i, t i ≤ maxPhotons

/-- the probability of more than `cutoff` photons in some mode -/
noncomputable def beyond {M : ℕ} (ρ : (Fin M → ℕ) → (Fin M → ℕ) → ℂ) (cutoff : ℕ) : ℝ := ∑' m : {m : Fin M → ℕ // ∃ i, cutoff < m i}, (ρ m m).re

theorem mem_accepted {M : ℕ} (hM : M ≠ 0) {cutoff maxPhotons : ℕ} {t : Fin M → ℕ} : t ∈ accepted M cutoff maxPhotons ↔ (∀ i, t i ≤ cutoff) ∧ t ⟨M - 1, by omega⟩ ≠ cutoff ∧ ∑ i, t i ≤ maxPhotons := by
  unfold accepted
  simp only [Finset.mem_filter, Fintype.mem_piFinset, Finset.mem_range, Nat.lt_succ_iff]
  refine and_congr_right fun _ => and_congr_left fun _ => ⟨fun h => h _ (by simp; omega), fun h i hi => ?_⟩
  have : i = ⟨M - 1, by omega⟩ := Fin.ext (by simp; omega)
  rw [this]
  exact h

section law
variable (lib : Lib) (hl : GoodSampler lib) (htol : 0 ≤ lib.tol) (M : ℕ) (hM : M ≠ 0) (mu : ℕ → ℝ) (cov : ℕ → ℕ → ℝ) (hph : Physical (phase M M cov) 2)
  (hsp : ∀ ν, SympSpectrum (phase M M cov) ν → ∀ i, ν i = 1 ∨ 1 + 1e-10 ≤ ν i) (cutoff : ℕ) (hc : 1 ≤ cutoff) (maxPhotons : ℕ)
  (ρ : (Fin M → ℕ) → (Fin M → ℕ) → ℂ) (hρ : IsFockMatrix M mu cov 2 ρ)

/-- the random numbers for which `hafnian_sample_state` (ħ = 2) ends and returns the rows `ts` -/
def returnsRows (ts : List (Fin M → ℕ)) : Set (ℕ → RoundDraws M) :=
  {ω | ∃ fuel k, hafnianSampleState (withStream lib ω) fuel (.arr (2 * M) (2 * M) fun i j => some (cov i j)) ts.length mu 2 cutoff maxPhotons 0 = .ok (ts.map List.ofFn, k)}

include hl htol hM hph hsp hc hρ

/-- the events of one round -/
theorem round_events : ∃ (A : (Fin M → ℕ) → Set (RoundDraws M)) (R : Set (RoundDraws M)), (∀ t, MeasurableSet (A t)) ∧ MeasurableSet R ∧ (∀ t, Disjoint (A t) R) ∧
    (∀ ω ∈ unitDraws M, (∀ t, ω ∈ returns lib ⟨2 * M, mu, cov⟩ M cutoff maxPhotons t ↔ ω ∈ A t) ∧ (ω ∈ rejects lib ⟨2 * M, mu, cov⟩ M cutoff maxPhotons ↔ ω ∈ R)) ∧
    (∑ t ∈ accepted M cutoff maxPhotons, (ρ t t).re ≤ 1 - (drawLaw M).real R ∧ 1 - (drawLaw M).real R ≤ ∑ t ∈ accepted M cutoff maxPhotons, (ρ t t).re + beyond ρ cutoff) := by
  classical
  obtain ⟨E, hm, hd, hemp, hlow, hret, hrej⟩ := outcome_setup lib hl htol ⟨2 * M, mu, cov⟩ M hM rfl hph hsp cutoff hc maxPhotons ρ hρ
  have hRm : MeasurableSet (⋃ t : {t : Fin M → ℕ // ¬ (t ⟨M - 1, by omega⟩ ≠ cutoff ∧ ∑ i, t i ≤ maxPhotons)}, E t) := MeasurableSet.iUnion fun t => hm t
  have hnn : ∀ m, 0 ≤ (ρ m m).re := fun m => ((fock_isPsd (by norm_num) hph hρ).diag m).1
  have hlow' : ∀ t, (∀ i, t i ≤ cutoff) → (ρ t t).re ≤ (drawLaw M).real (E t) := fun t ht => by
    have := hlow t ht
    rwa [ENNReal.ofReal_le_iff_le_toReal (measure_ne_top _ _)] at this
  refine ⟨fun t => if t ⟨M - 1, by omega⟩ ≠ cutoff ∧ ∑ i, t i ≤ maxPhotons then E t else ∅, _, fun t => ?_, hRm, fun t => ?_, fun ω hω => ⟨fun t => ?_, ?_⟩, ?_⟩
  · beta_reduce
    split_ifs
    · exact hm t
    · exact MeasurableSet.empty
  · beta_reduce
    split_ifs with h
    · rw [Set.disjoint_left]
      intro ω h1 h2
      obtain ⟨t', h3⟩ := Set.mem_iUnion.mp h2
      have hne : t ≠ t' := fun h4 => t'.2 (h4 ▸ h)
      exact Set.disjoint_left.mp (hd t t' hne) h1 h3
    · exact disjoint_bot_left
  · rw [hret t ω hω]
    beta_reduce
    split_ifs with h
    · exact ⟨fun h' => h'.1, fun h' => ⟨h', h⟩⟩
    · exact ⟨fun h' => absurd h'.2 h, fun h' => absurd h' (Set.notMem_empty _)⟩
  · rw [hrej ω hω, Set.mem_iUnion]
    exact ⟨fun ⟨t, h1, h2⟩ => ⟨⟨t, h2⟩, h1⟩, fun ⟨t, h1⟩ => ⟨t.1, h1, t.2⟩⟩
  -- the probability of a rejection
  set box := Fintype.piFinset fun _ : Fin M => Finset.range (cutoff + 1) with hbox
  have hmem : ∀ t : Fin M → ℕ, t ∈ box ↔ ∀ i, t i ≤ cutoff := fun t => by
    simp only [hbox, Fintype.mem_piFinset, Finset.mem_range, Nat.lt_succ_iff]
  have hacc : accepted M cutoff maxPhotons ⊆ box := fun t ht => (hmem t).mpr ((mem_accepted hM).mp ht).1
  have hReq : (⋃ t : {t : Fin M → ℕ // ¬ (t ⟨M - 1, by omega⟩ ≠ cutoff ∧ ∑ i, t i ≤ maxPhotons)}, E t) = ⋃ t ∈ box \ accepted M cutoff maxPhotons, E t := by
    ext ω
    simp only [Set.mem_iUnion, Finset.mem_sdiff, exists_prop, Subtype.exists]
    constructor
    · rintro ⟨t, h1, h2⟩
      have hb : t ∈ box := (hmem t).mpr fun i => by
        by_contra h
        rw [hemp t ⟨i, by omega⟩] at h2
        exact absurd h2 (Set.notMem_empty _)
      exact ⟨t, ⟨hb, fun h => h1 ((mem_accepted hM).mp h).2⟩, h2⟩
    · rintro ⟨t, ⟨h1, h3⟩, h2⟩
      exact ⟨t, fun h => h3 ((mem_accepted hM).mpr ⟨(hmem t).mp h1, h⟩), h2⟩
  rw [hReq, measureReal_biUnion_finset (fun t _ t' _ h => hd t t' h) fun t _ => hm t]
  have htot : ∑ t ∈ box, (drawLaw M).real (E t) ≤ 1 := by
    rw [← measureReal_biUnion_finset (fun t _ t' _ h => hd t t' h) fun t _ => hm t]
    exact measureReal_le_one
  have hsplit := Finset.sum_sdiff (f := fun t => (drawLaw M).real (E t)) hacc
  have hsplit2 := Finset.sum_sdiff (f := fun t => (ρ t t).re) hacc
  constructor
  · have h1 : ∑ t ∈ accepted M cutoff maxPhotons, (ρ t t).re ≤ ∑ t ∈ accepted M cutoff maxPhotons, (drawLaw M).real (E t) := Finset.sum_le_sum fun t ht => hlow' t ((hmem t).mp (hacc ht))
    linarith
  · have h1 : ∑ t ∈ box \ accepted M cutoff maxPhotons, (ρ t t).re ≤ ∑ t ∈ box \ accepted M cutoff maxPhotons, (drawLaw M).real (E t) :=
      Finset.sum_le_sum fun t ht => hlow' t ((hmem t).mp (Finset.mem_sdiff.mp ht).1)
    have h6 : HasSum (fun m => (ρ m m).re) 1 := by
      have := Complex.hasSum_re (fockMatrix_trace (by norm_num) hph hρ)
      simpa using this
    have h2 : ∑ t ∈ box, (ρ t t).re + beyond ρ cutoff = 1 := by
      have h3 := h6.summable.sum_add_tsum_subtype_compl box
      rw [h6.tsum_eq] at h3
      rw [← h3]
      congr 1
      unfold beyond
      refine (Equiv.subtypeEquivRight fun m => ?_).tsum_eq (fun m : {m // m ∉ box} => (ρ m m).re)
      rw [hmem]
      push Not
      rfl
    linarith

/-- **C95** The rows that `hafnian_sample_state` returns (ħ = 2) are independent, and each has the law of one round of the sampler given that the round does not reject its pattern: for every physical Gaussian
state, cutoff, `max_photons` and number of samples. -/
theorem hafnianSampleState_law (ts : List (Fin M → ℕ)) (hts : ts ≠ []) :
    (streamLaw M).real (returnsRows lib M mu cov cutoff maxPhotons ts) =
      (ts.map fun t => (drawLaw M).real (returns lib ⟨2 * M, mu, cov⟩ M cutoff maxPhotons t) / (1 - (drawLaw M).real (rejects lib ⟨2 * M, mu, cov⟩ M cutoff maxPhotons))).prod := by
  classical
  obtain ⟨A, R, hA, hR, hd, hAR, hq1, hq2⟩ := round_events lib hl htol M hM mu cov hph hsp cutoff hc maxPhotons ρ hρ
  have hae : ∀ᵐ ω ∂drawLaw M, ω ∈ unitDraws M := by
    rw [ae_iff]
    exact unitDraws_compl M
  have hAe : ∀ t, (drawLaw M).real (returns lib ⟨2 * M, mu, cov⟩ M cutoff maxPhotons t) = (drawLaw M).real (A t) := fun t => measureReal_congr (by
    filter_upwards [hae] with ω hω
    exact propext ((hAR ω hω).1 t))
  have hRe : (drawLaw M).real (rejects lib ⟨2 * M, mu, cov⟩ M cutoff maxPhotons) = (drawLaw M).real R := measureReal_congr (by
    filter_upwards [hae] with ω hω
    exact propext (hAR ω hω).2)
  have hnn : ∀ m, 0 ≤ (ρ m m).re := fun m => ((fock_isPsd (by norm_num) hph hρ).diag m).1
  have hvac : 0 < (ρ 0 0).re := by
    obtain ⟨h1, h2⟩ := fockMatrix_vacuum (by norm_num) hph hρ
    rw [h1, Complex.ofReal_re]
    exact h2
  have hq : (drawLaw M).real R < 1 := by
    have h0 : (0 : Fin M → ℕ) ∈ accepted M cutoff maxPhotons := (mem_accepted hM).mpr ⟨fun i => Nat.zero_le _, by change 0 ≠ cutoff; omega, by simp⟩
    have := Finset.single_le_sum (fun t _ => hnn t) h0
    linarith
  simp only [hAe, hRe]
  rw [← runs_law (drawLaw M) hA hR hd hq ts]
  refine measureReal_congr ?_
  have haes : ∀ᵐ ω ∂streamLaw M, ∀ j, ω j ∈ unitDraws M := by
    rw [ae_all_iff]
    intro j
    exact (measurePreserving_eval_infinitePi (fun _ : ℕ => drawLaw M) j).quasiMeasurePreserving.ae hae
  filter_upwards [haes] with ω hω
  refine propext ?_
  change (∃ fuel k, _) ↔ ω ∈ ⋃ f, runs A R f ts
  rw [Set.mem_iUnion]
  refine exists_congr fun fuel => ?_
  have hgen := generate_round lib hl ⟨2 * M, mu, cov⟩ M hM rfl hph hsp cutoff hc maxPhotons ω
  have hcol := collect_rounds (generateHafnianSample (withStream lib ω) ⟨2 * M, mu, cov⟩ 2 cutoff maxPhotons) (M + 2) ω A R (fun t => List.ofFn t) (fun j l k => ?_) (fun j k => ?_) fuel 0 ts.length [] (ts.map List.ofFn)
  · have hst : ∀ k, hafnianSampleState (withStream lib ω) fuel (.arr (2 * M) (2 * M) fun i j => some (cov i j)) ts.length mu 2 cutoff maxPhotons 0 = .ok (ts.map List.ofFn, k) ↔
        collect (generateHafnianSample (withStream lib ω) ⟨2 * M, mu, cov⟩ 2 cutoff maxPhotons) fuel ts.length [] 0 = .ok (ts.map List.ofFn, k) := fun k => by
      have hck : covChecks (.arr (2 * M) (2 * M) fun i j => some (cov i j)) = .ok (2 * M, cov) := by
        unfold covChecks
        dsimp only
        rw [if_neg (by simp), if_neg (by simp)]
        rfl
      have hrun : hafnianSampleState (withStream lib ω) fuel (.arr (2 * M) (2 * M) fun i j => some (cov i j)) ts.length mu 2 cutoff maxPhotons 0 =
          (collect (generateHafnianSample (withStream lib ω) ⟨2 * M, mu, cov⟩ 2 cutoff maxPhotons) fuel ts.length [] 0).bind fun p => vstack p.1 p.2 := by
        unfold hafnianSampleState hafnianSample
        rw [hck]
        rfl
      rw [hrun]
      generalize collect (generateHafnianSample (withStream lib ω) ⟨2 * M, mu, cov⟩ 2 cutoff maxPhotons) fuel ts.length [] 0 = e
      have hv : ∀ (rows : List (List ℕ)) (k' : ℕ), vstack rows k' = if rows = [] then .error .valueError else .ok (rows, k') := fun rows k' => by
        unfold vstack
        split_ifs <;> rfl
      cases e with
      | error e => simp [Except.bind]
      | ok p =>
        change vstack p.1 p.2 = _ ↔ _
        rw [hv]
        obtain ⟨rows, k'⟩ := p
        have hne : ts.map List.ofFn ≠ [] := by simpa using hts
        simp only [Except.ok.injEq, Prod.mk.injEq]
        by_cases h : rows = []
        · rw [if_pos h]
          constructor
          · intro h'; simp at h'
          · rintro ⟨h1, -⟩; exact absurd (h1.symm.trans h) hne
        · rw [if_neg h]
          simp
    rw [exists_congr hst]
    rw [Nat.zero_mul] at hcol
    rw [hcol]
    have hinj : Function.Injective (List.map (List.ofFn : (Fin M → ℕ) → List ℕ)) := List.map_injective_iff.mpr List.ofFn_injective
    have hω0 : (fun i => ω (0 + i)) = ω := funext fun i => by rw [Nat.zero_add]
    rw [hω0]
    constructor
    · rintro ⟨xs, -, h2, h3⟩
      rw [List.nil_append] at h2
      rwa [hinj h2]
    · intro h
      exact ⟨ts, rfl, rfl, h⟩
  · rw [(hgen j (some l) k).1]
    refine and_congr_right fun hk => ?_
    constructor
    · rintro ⟨k', h⟩
      have hlen := (hgen j (some l) k).2 l rfl ((hgen j (some l) k).1.mpr ⟨hk, k', h⟩)
      have hof : l = List.ofFn fun i : Fin M => l[(i : ℕ)]'(by omega) := by
        apply List.ext_getElem
        · simp [hlen]
        · intro i h1 h2
          simp
      refine ⟨_, hof, ((hAR (ω j) (hω j)).1 _).mp ?_⟩
      exact ⟨k', by rw [← hof]; exact h⟩
    · rintro ⟨t, rfl, ht⟩
      obtain ⟨k', h⟩ := ((hAR (ω j) (hω j)).1 t).mpr ht
      exact ⟨k', h⟩
  · rw [(hgen j none k).1]
    exact and_congr_right fun _ => (hAR (ω j) (hω j)).2

/-- **C95** The probability that a round is not rejected: between the probability of an accepted pattern in the photon-number distribution of the state, and that plus the probability of more than `cutoff` photons in
some mode. -/
theorem acceptance_bounds : ∑ t ∈ accepted M cutoff maxPhotons, (ρ t t).re ≤ 1 - (drawLaw M).real (rejects lib ⟨2 * M, mu, cov⟩ M cutoff maxPhotons) ∧
    1 - (drawLaw M).real (rejects lib ⟨2 * M, mu, cov⟩ M cutoff maxPhotons) ≤ ∑ t ∈ accepted M cutoff maxPhotons, (ρ t t).re + beyond ρ cutoff := by
  obtain ⟨A, R, hA, hR, hd, hAR, hq1, hq2⟩ := round_events lib hl htol M hM mu cov hph hsp cutoff hc maxPhotons ρ hρ
  have hae : ∀ᵐ ω ∂drawLaw M, ω ∈ unitDraws M := by
    rw [ae_iff]
    exact unitDraws_compl M
  have hRe : (drawLaw M).real (rejects lib ⟨2 * M, mu, cov⟩ M cutoff maxPhotons) = (drawLaw M).real R := measureReal_congr (by
    filter_upwards [hae] with ω hω
    exact propext (hAR ω hω).2)
  rw [hRe]
  exact ⟨hq1, hq2⟩

/-- **C95** The law of a row: a pattern that can be accepted has, up to the probability of more than `cutoff` photons in some mode, its Born probability divided by the probability of an accepted pattern; no other
pattern occurs. -/
theorem row_bounds (t : Fin M → ℕ) :
    (t ∈ accepted M cutoff maxPhotons →
      (ρ t t).re / (∑ m ∈ accepted M cutoff maxPhotons, (ρ m m).re + beyond ρ cutoff) ≤
        (drawLaw M).real (returns lib ⟨2 * M, mu, cov⟩ M cutoff maxPhotons t) / (1 - (drawLaw M).real (rejects lib ⟨2 * M, mu, cov⟩ M cutoff maxPhotons)) ∧
      (drawLaw M).real (returns lib ⟨2 * M, mu, cov⟩ M cutoff maxPhotons t) / (1 - (drawLaw M).real (rejects lib ⟨2 * M, mu, cov⟩ M cutoff maxPhotons)) ≤
        ((ρ t t).re + beyond ρ cutoff) / ∑ m ∈ accepted M cutoff maxPhotons, (ρ m m).re) ∧
    (t ∉ accepted M cutoff maxPhotons → (drawLaw M).real (returns lib ⟨2 * M, mu, cov⟩ M cutoff maxPhotons t) = 0) := by
  have hnn : ∀ m, 0 ≤ (ρ m m).re := fun m => ((fock_isPsd (by norm_num) hph hρ).diag m).1
  have hvac : 0 < (ρ 0 0).re := by
    obtain ⟨h1, h2⟩ := fockMatrix_vacuum (by norm_num) hph hρ
    rw [h1, Complex.ofReal_re]
    exact h2
  have hpos : 0 < ∑ m ∈ accepted M cutoff maxPhotons, (ρ m m).re := by
    have h0 : (0 : Fin M → ℕ) ∈ accepted M cutoff maxPhotons := (mem_accepted hM).mpr ⟨fun i => Nat.zero_le _, by change 0 ≠ cutoff; omega, by simp⟩
    exact lt_of_lt_of_le hvac (Finset.single_le_sum (fun t _ => hnn t) h0)
  obtain ⟨-, h1, h2⟩ := generateHafnianSample_law lib hl htol ⟨2 * M, mu, cov⟩ M hM rfl hph hsp cutoff hc maxPhotons ρ hρ t
  obtain ⟨h3, h4⟩ := acceptance_bounds lib hl htol M hM mu cov hph hsp cutoff hc maxPhotons ρ hρ
  refine ⟨fun ht => ?_, fun ht => ?_⟩
  · obtain ⟨ha, hb, hc'⟩ := (mem_accepted hM).mp ht
    obtain ⟨h5, h6⟩ := h1 ha hb hc'
    have h7 : 0 ≤ (ρ t t).re := hnn t
    change _ ≤ _ + beyond ρ cutoff at h6
    exact ⟨div_le_div₀ (h7.trans h5) h5 (lt_of_lt_of_le hpos h3) h4, div_le_div₀ (h7.trans (h5.trans h6)) h6 hpos h3⟩
  · rw [measureReal_def, h2, ENNReal.toReal_zero]
    by_contra hcon
    push Not at hcon
    exact ht ((mem_accepted hM).mpr ⟨hcon.1, hcon.2.1, hcon.2.2⟩)

/-- **C95** The probability that the sampler ends with a row: at least the probability of an accepted pattern divided by that plus the probability of more than `cutoff` photons in some mode. -/
theorem row_total : (∑ m ∈ accepted M cutoff maxPhotons, (ρ m m).re) / (∑ m ∈ accepted M cutoff maxPhotons, (ρ m m).re + beyond ρ cutoff) ≤
    ∑ t ∈ accepted M cutoff maxPhotons, (streamLaw M).real (returnsRows lib M mu cov cutoff maxPhotons [t]) := by
  rw [Finset.sum_div]
  refine Finset.sum_le_sum fun t ht => ?_
  rw [hafnianSampleState_law lib hl htol M hM mu cov hph hsp cutoff hc maxPhotons ρ hρ [t] (by simp), List.map_singleton, List.prod_singleton]
  exact ((row_bounds lib hl htol M hM mu cov hph hsp cutoff hc maxPhotons ρ hρ t).1 ht).1

end law

theorem accepted_large {M : ℕ} (hM : M ≠ 0) {cutoff maxPhotons : ℕ} (h : maxPhotons < cutoff) (t : Fin M → ℕ) : t ∈ accepted M cutoff maxPhotons ↔ ∑ i, t i ≤ maxPhotons := by
  rw [mem_accepted hM]
  have hle : ∀ i, t i ≤ ∑ i, t i := fun i => Finset.single_le_sum (fun _ _ => Nat.zero_le _) (Finset.mem_univ i)
  constructor
  · exact fun h => h.2.2
  · intro h1
    refine ⟨fun i => by have := hle i; omega, ?_, h1⟩
    have := hle ⟨M - 1, by omega⟩
    omega

/-- **C95** As the cutoff grows, the rows that `hafnian_sample_state` returns (ħ = 2) become independent samples of the photon-number distribution of the state, conditioned on at most `max_photons` photons. -/
theorem hafnianSampleState_limit (lib : Lib) (hl : GoodSampler lib) (htol : 0 ≤ lib.tol) (M : ℕ) (hM : M ≠ 0) (mu : ℕ → ℝ) (cov : ℕ → ℕ → ℝ) (hph : Physical (phase M M cov) 2)
    (hsp : ∀ ν, SympSpectrum (phase M M cov) ν → ∀ i, ν i = 1 ∨ 1 + 1e-10 ≤ ν i) (maxPhotons : ℕ) (ρ : (Fin M → ℕ) → (Fin M → ℕ) → ℂ) (hρ : IsFockMatrix M mu cov 2 ρ)
    (ts : List (Fin M → ℕ)) (hts : ts ≠ []) (hmax : ∀ t ∈ ts, ∑ i, t i ≤ maxPhotons) :
    Filter.Tendsto (fun cutoff => (streamLaw M).real (returnsRows lib M mu cov cutoff maxPhotons ts)) Filter.atTop
      (nhds (ts.map fun t => (ρ t t).re / ∑' m : {m : Fin M → ℕ // ∑ i, m i ≤ maxPhotons}, (ρ m m).re).prod) := by
  classical
  have hnn : ∀ m, 0 ≤ (ρ m m).re := fun m => ((fock_isPsd (by norm_num) hph hρ).diag m).1
  have hvac : 0 < (ρ 0 0).re := by
    obtain ⟨h1, h2⟩ := fockMatrix_vacuum (by norm_num) hph hρ
    rw [h1, Complex.ofReal_re]
    exact h2
  have h6 : HasSum (fun m => (ρ m m).re) 1 := by
    have := Complex.hasSum_re (fockMatrix_trace (by norm_num) hph hρ)
    simpa using this
  have hsum : ∀ cutoff, maxPhotons < cutoff → ∑ m ∈ accepted M cutoff maxPhotons, (ρ m m).re = ∑' m : {m : Fin M → ℕ // ∑ i, m i ≤ maxPhotons}, (ρ m m).re := fun cutoff h => by
    rw [← Finset.tsum_subtype]
    exact (Equiv.subtypeEquivRight fun m => accepted_large hM h m).tsum_eq (fun m : {m : Fin M → ℕ // ∑ i, m i ≤ maxPhotons} => (ρ m m).re)
  set S := ∑' m : {m : Fin M → ℕ // ∑ i, m i ≤ maxPhotons}, (ρ m m).re with hS
  have hSpos : 0 < S := by
    rw [← hsum (maxPhotons + 1) (by omega)]
    have h0 : (0 : Fin M → ℕ) ∈ accepted M (maxPhotons + 1) maxPhotons := (accepted_large hM (by omega) 0).mpr (by simp)
    exact lt_of_lt_of_le hvac (Finset.single_le_sum (fun t _ => hnn t) h0)
  have hbey : Filter.Tendsto (fun cutoff => beyond ρ cutoff) Filter.atTop (nhds 0) := by
    have h2 := tendsto_tsum_compl_atTop_zero fun m => (ρ m m).re
    have h3 : Filter.Tendsto (fun cutoff : ℕ => (Fintype.piFinset fun _ : Fin M => Finset.range (cutoff + 1))) Filter.atTop Filter.atTop := by
      refine Filter.tendsto_atTop_finset_of_monotone (fun a b hab => Fintype.piFinset_subset _ _ fun _ => Finset.range_mono (by omega)) fun m => ?_
      refine ⟨∑ i, m i, ?_⟩
      simp only [Fintype.mem_piFinset, Finset.mem_range, Nat.lt_succ_iff]
      exact fun i => Finset.single_le_sum (fun _ _ => Nat.zero_le _) (Finset.mem_univ i)
    refine (h2.comp h3).congr fun cutoff => ?_
    simp only [Function.comp]
    refine ((Equiv.subtypeEquivRight fun m => ?_).tsum_eq (fun m : {m // m ∉ Fintype.piFinset fun _ : Fin M => Finset.range (cutoff + 1)} => (ρ m m).re)).symm
    simp only [Fintype.mem_piFinset, Finset.mem_range, Nat.lt_succ_iff]
    push Not
    rfl
  have hone : ∀ t : Fin M → ℕ, ∑ i, t i ≤ maxPhotons → Filter.Tendsto (fun cutoff => (drawLaw M).real (returns lib ⟨2 * M, mu, cov⟩ M cutoff maxPhotons t) / (1 - (drawLaw M).real (rejects lib ⟨2 * M, mu, cov⟩ M cutoff maxPhotons))) Filter.atTop (nhds ((ρ t t).re / S)) := by
    intro t ht
    have hlo : Filter.Tendsto (fun cutoff => (ρ t t).re / (S + beyond ρ cutoff)) Filter.atTop (nhds ((ρ t t).re / S)) := by
      have := (tendsto_const_nhds (x := (ρ t t).re) (f := Filter.atTop (α := ℕ))).div (hbey.const_add S) (by rw [add_zero]; exact hSpos.ne')
      rwa [add_zero] at this
    have hhi : Filter.Tendsto (fun cutoff => ((ρ t t).re + beyond ρ cutoff) / S) Filter.atTop (nhds ((ρ t t).re / S)) := by
      have := (hbey.const_add (ρ t t).re).div_const S
      rwa [add_zero] at this
    have hb : ∀ᶠ cutoff in Filter.atTop, (ρ t t).re / (S + beyond ρ cutoff) ≤ (drawLaw M).real (returns lib ⟨2 * M, mu, cov⟩ M cutoff maxPhotons t) / (1 - (drawLaw M).real (rejects lib ⟨2 * M, mu, cov⟩ M cutoff maxPhotons)) ∧
        (drawLaw M).real (returns lib ⟨2 * M, mu, cov⟩ M cutoff maxPhotons t) / (1 - (drawLaw M).real (rejects lib ⟨2 * M, mu, cov⟩ M cutoff maxPhotons)) ≤ ((ρ t t).re + beyond ρ cutoff) / S := by
      filter_upwards [Filter.eventually_gt_atTop maxPhotons, Filter.eventually_ge_atTop 1] with cutoff h1 h2
      have := (row_bounds lib hl htol M hM mu cov hph hsp cutoff h2 maxPhotons ρ hρ t).1 ((accepted_large hM h1 t).mpr ht)
      rwa [hsum cutoff h1] at this
    exact tendsto_of_tendsto_of_tendsto_of_le_of_le' hlo hhi (hb.mono fun _ h => h.1) (hb.mono fun _ h => h.2)
  have hprod : Filter.Tendsto (fun cutoff => (ts.map fun t => (drawLaw M).real (returns lib ⟨2 * M, mu, cov⟩ M cutoff maxPhotons t) / (1 - (drawLaw M).real (rejects lib ⟨2 * M, mu, cov⟩ M cutoff maxPhotons))).prod) Filter.atTop
      (nhds (ts.map fun t => (ρ t t).re / S).prod) := by
    clear hts
    induction ts with
    | nil => simp
    | cons t ts ih =>
      simp only [List.map_cons, List.prod_cons]
      exact (hone t (hmax t (by simp))).mul (ih fun t' ht' => hmax t' (by simp [ht']))
  refine hprod.congr' ?_
  filter_upwards [Filter.eventually_ge_atTop 1] with cutoff h1
  exact (hafnianSampleState_law lib hl htol M hM mu cov hph hsp cutoff h1 maxPhotons ρ hρ ts hts).symm

/-- A concrete case: two entangled modes, two rows, cutoff 5, at most 30 photons. -/
example (mu : ℕ → ℝ) : ∃ lib, GoodSampler lib ∧ 0 ≤ lib.tol ∧ ∃ ρ, IsFockMatrix 2 mu tmsExample 2 ρ ∧
    (streamLaw 2).real (returnsRows lib 2 mu tmsExample 5 30 [![2, 3], ![0, 1]]) =
      (([![2, 3], ![0, 1]] : List (Fin 2 → ℕ)).map fun t => (drawLaw 2).real (returns lib ⟨4, mu, tmsExample⟩ 2 5 30 t) / (1 - (drawLaw 2).real (rejects lib ⟨4, mu, tmsExample⟩ 2 5 30))).prod ∧
    ![2, 3] ∈ accepted 2 5 30 := by
  obtain ⟨lib0, hl0, -⟩ := goodSampler_exists exampleLib
  have hl : GoodSampler { lib0 with tol := 1 } := ⟨hl0.1, hl0.2, hl0.3, hl0.4⟩
  have hph : Physical (phase 2 2 tmsExample) 2 := (physical_iff_spectrum _ 2 (by norm_num) _ tmsExample_spec).mpr fun _ => by norm_num
  obtain ⟨ρ, _, _, -, hρ, -⟩ := fock_gram (N := 2) mu (by norm_num : (0 : ℝ) < 2) hph
  refine ⟨_, hl, by norm_num, ρ, hρ, ?_, (mem_accepted (by norm_num)).mpr ⟨?_, ?_, ?_⟩⟩
  · refine hafnianSampleState_law _ hl (by norm_num) 2 (by norm_num) mu tmsExample hph (fun ν hν i => Or.inl ?_) 5 (by norm_num) 30 ρ hρ _ (by simp)
    have hp := sympSpectrum_unique _ _ _ hν tmsExample_spec
    have hm : ν i ∈ List.ofFn fun _ : Fin 2 => (1 : ℝ) := hp.mem_iff.mp (List.mem_ofFn.mpr ⟨i, rfl⟩)
    obtain ⟨j, hj⟩ := List.mem_ofFn.mp hm
    exact hj.symm
  · intro i; fin_cases i <;> simp
  · simp
  · simp

end Verif.Props
