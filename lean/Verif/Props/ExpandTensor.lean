/-
C83: `expand` embeds a gate: the Gaussian unitary of the expanded matrix is the gate on the listed modes and the identity on the others.
-/
import Verif.Props.GateTensors
import Verif.Props.GaussianEvolution

set_option linter.unusedSectionVars false
set_option linter.unusedSimpArgs false

namespace Verif.Props
open Verif.Model Verif.Model.Symp Verif.Spec Verif.Lemmas Verif.Lemmas.Symp Verif.Lemmas.Heis Matrix

section general
variable {ι κ : Type} [Fintype ι] [DecidableEq ι] [Fintype κ] [DecidableEq κ] {f : ι → κ} (hf : Function.Injective f)

/-- the occupation numbers `x` on the modes `f`, and those of `j` elsewhere -/
noncomputable def glue (f : ι → κ) (x : ι → ℕ) (j : κ → ℕ) : κ → ℕ := by
  classical exact fun k => if h : ∃ a, f a = k then x h.choose else j k

theorem glue_mem (hf : Function.Injective f) (x : ι → ℕ) (j : κ → ℕ) : glue f x j ∘ f = x := by
  classical
  funext a
  have h : ∃ b, f b = f a := ⟨a, rfl⟩
  simp only [glue, Function.comp, dif_pos h]
  rw [hf h.choose_spec]

theorem glue_off (x : ι → ℕ) (j : κ → ℕ) (k : κ) (hk : k ∉ Set.range f) : glue f x j k = j k := by
  classical
  simp only [glue]
  rw [dif_neg (by simpa using hk)]

theorem glue_injective (hf : Function.Injective f) (j : κ → ℕ) : Function.Injective fun x => glue f x j := fun x y h => by
  rw [← glue_mem hf x j, ← glue_mem hf y j]; exact congrArg (· ∘ f) h

/-- equality of occupation numbers on the modes `f` and elsewhere -/
theorem eq_of_parts (i j : κ → ℕ) (h1 : i ∘ f = j ∘ f) (h2 : ∀ k, k ∉ Set.range f → i k = j k) : i = j := by
  funext k
  by_cases hk : k ∈ Set.range f
  · obtain ⟨a, rfl⟩ := hk
    exact congrFun h1 a
  · exact h2 k hk

open Classical in
/-- the operator that acts as `U` on the modes `f` and as the identity elsewhere -/
noncomputable def onModes (f : ι → κ) (U : (ι → ℕ) → (ι → ℕ) → ℂ) (i j : κ → ℕ) : ℂ := if ∀ k, k ∉ Set.range f → i k = j k then U (i ∘ f) (j ∘ f) else 0

theorem onModes_cols (hf : Function.Injective f) {U : (ι → ℕ) → (ι → ℕ) → ℂ} (hU : ∀ j k, HasSum (fun i => (starRingEnd ℂ) (U i j) * U i k) (if j = k then 1 else 0)) (j k : κ → ℕ) :
    HasSum (fun i => (starRingEnd ℂ) (onModes f U i j) * onModes f U i k) (if j = k then 1 else 0) := by
  classical
  by_cases h : ∀ x, x ∉ Set.range f → j x = k x
  · have h1 := hU (j ∘ f) (k ∘ f)
    have e : (if j ∘ f = k ∘ f then (1 : ℂ) else 0) = if j = k then 1 else 0 := by
      by_cases hjk : j = k
      · rw [if_pos hjk, if_pos (by rw [hjk])]
      · rw [if_neg hjk, if_neg fun h2 => hjk (eq_of_parts j k h2 h)]
    rw [e] at h1
    refine ((glue_injective hf j).hasSum_iff ?_).mp (h1.congr_fun fun x => ?_)
    · intro i hi
      have : ¬ ∀ x, x ∉ Set.range f → i x = j x := fun hij => hi ⟨i ∘ f, eq_of_parts _ _ (glue_mem hf _ _) fun x hx => by
        change glue f (i ∘ f) j x = i x
        rw [glue_off _ _ _ hx, hij x hx]⟩
      rw [onModes, if_neg this, map_zero, zero_mul]
    · simp only [Function.comp_apply, onModes]
      rw [if_pos fun x hx => glue_off _ _ _ hx, if_pos fun x hx => (glue_off _ _ _ hx).trans (h x hx), glue_mem hf]
  · have hne : j ≠ k := fun e => h fun x _ => by rw [e]
    rw [if_neg hne]
    refine hasSum_zero.congr_fun fun i => ?_
    by_cases h1 : ∀ x, x ∉ Set.range f → i x = j x
    · have h2 : ¬ ∀ x, x ∉ Set.range f → i x = k x := fun h2 => h fun x hx => (h1 x hx).symm.trans (h2 x hx)
      rw [onModes, onModes, if_neg h2, mul_zero]
    · rw [onModes, onModes, if_neg h1, map_zero, zero_mul]

theorem onModes_adj (U : (ι → ℕ) → (ι → ℕ) → ℂ) (i j : κ → ℕ) : onModes f U i j = onModes f (fun a b => U b a) j i := by
  classical
  unfold onModes
  refine if_congr ?_ rfl rfl
  exact ⟨fun h k hk => (h k hk).symm, fun h k hk => (h k hk).symm⟩

theorem onModes_unitary (hf : Function.Injective f) {U : (ι → ℕ) → (ι → ℕ) → ℂ} (hU : IsUnitaryFock U) : IsUnitaryFock (onModes f U) := by
  refine ⟨onModes_cols hf hU.cols, fun j k => ?_⟩
  have := onModes_cols (f := f) hf (U := fun a b => U b a) hU.rows j k
  refine this.congr_fun fun i => ?_
  rw [onModes_adj U j i, onModes_adj U k i]

theorem single_comp (hf : Function.Injective f) (i : κ → ℕ) (a : ι) : (i + Pi.single (f a) 1 : κ → ℕ) ∘ f = i ∘ f + Pi.single a 1 ∧ (i - Pi.single (f a) 1 : κ → ℕ) ∘ f = i ∘ f - Pi.single a 1 := by
  constructor <;> funext b <;> by_cases h : b = a
  · subst h; simp
  · have : f b ≠ f a := fun e => h (hf e)
    simp [Pi.single_eq_of_ne h, Pi.single_eq_of_ne this]
  · subst h; simp
  · have : f b ≠ f a := fun e => h (hf e)
    simp [Pi.single_eq_of_ne h, Pi.single_eq_of_ne this]

theorem single_off (i : κ → ℕ) (a : ι) (k : κ) (hk : k ∉ Set.range f) : (i + Pi.single (f a) 1 : κ → ℕ) k = i k ∧ (i - Pi.single (f a) 1 : κ → ℕ) k = i k := by
  have : k ≠ f a := fun e => hk ⟨a, e.symm⟩
  simp [Pi.single_eq_of_ne this]

theorem single_off_comp (i : κ → ℕ) (k : κ) (hk : k ∉ Set.range f) : (i + Pi.single k 1 : κ → ℕ) ∘ f = i ∘ f ∧ (i - Pi.single k 1 : κ → ℕ) ∘ f = i ∘ f := by
  constructor <;> funext a
  · have : f a ≠ k := fun e => hk ⟨a, e⟩
    simp [Pi.single_eq_of_ne this]
  · have : f a ≠ k := fun e => hk ⟨a, e⟩
    simp [Pi.single_eq_of_ne this]

/-- the relations of the embedded operator -/
theorem onModes_heis (hf : Function.Injective f) {E F : Matrix ι ι ℂ} {E' F' : Matrix κ κ ℂ} {α : ι → ℂ} {α' : κ → ℂ} {U : (ι → ℕ) → (ι → ℕ) → ℂ} (hU : Heisenberg E F α U)
    (h1 : ∀ a b, E' (f a) (f b) = E a b ∧ F' (f a) (f b) = F a b) (h2 : ∀ k, k ∉ Set.range f → ∀ m, E' k m = (1 : Matrix κ κ ℂ) k m ∧ F' k m = 0 ∧ E' m k = (1 : Matrix κ κ ℂ) m k ∧ F' m k = 0)
    (h3 : ∀ a, α' (f a) = α a) (h4 : ∀ k, k ∉ Set.range f → α' k = 0) : Heisenberg E' F' α' (onModes f U) := by
  classical
  have hoff : ∀ a k, k ∉ Set.range f → E' (f a) k = 0 ∧ F' (f a) k = 0 := fun a k hk => by
    have hne : f a ≠ k := fun e => hk ⟨a, e⟩
    exact ⟨by rw [(h2 k hk (f a)).2.2.1, Matrix.one_apply_ne hne], (h2 k hk (f a)).2.2.2⟩
  constructor
  · intro k i j
    by_cases hk : k ∈ Set.range f
    · obtain ⟨a, rfl⟩ := hk
      rw [← Fintype.sum_of_injective f hf (fun m => E a m * (root (j (f m)) * onModes f U i (j - Pi.single (f m) 1)) + F a m * (root (j (f m) + 1) * onModes f U i (j + Pi.single (f m) 1))) _
        (fun m hm => by rw [(hoff a m hm).1, (hoff a m hm).2]; ring) (fun m => by rw [(h1 a m).1, (h1 a m).2]), h3]
      by_cases hij : ∀ x, x ∉ Set.range f → i x = j x
      · have e1 : onModes f U (i + Pi.single (f a) 1) j = U (i ∘ f + Pi.single a 1) (j ∘ f) := by
          rw [onModes, if_pos fun x hx => (single_off i a x hx).1.trans (hij x hx), (single_comp hf i a).1]
        have e2 : ∀ m, onModes f U i (j - Pi.single (f m) 1) = U (i ∘ f) (j ∘ f - Pi.single m 1) := fun m => by
          rw [onModes, if_pos fun x hx => (hij x hx).trans (single_off j m x hx).2.symm, (single_comp hf j m).2]
        have e3 : ∀ m, onModes f U i (j + Pi.single (f m) 1) = U (i ∘ f) (j ∘ f + Pi.single m 1) := fun m => by
          rw [onModes, if_pos fun x hx => (hij x hx).trans (single_off j m x hx).1.symm, (single_comp hf j m).1]
        have e4 : onModes f U i j = U (i ∘ f) (j ∘ f) := by rw [onModes, if_pos hij]
        simp only [e1, e2, e3, e4]
        exact hU.ann a (i ∘ f) (j ∘ f)
      · have e1 : onModes f U (i + Pi.single (f a) 1) j = 0 := by
          rw [onModes, if_neg fun h => hij fun x hx => (single_off i a x hx).1.symm.trans (h x hx)]
        have e2 : ∀ m, onModes f U i (j - Pi.single (f m) 1) = 0 := fun m => by
          rw [onModes, if_neg fun h => hij fun x hx => (h x hx).trans (single_off j m x hx).2]
        have e3 : ∀ m, onModes f U i (j + Pi.single (f m) 1) = 0 := fun m => by
          rw [onModes, if_neg fun h => hij fun x hx => (h x hx).trans (single_off j m x hx).1]
        have e4 : onModes f U i j = 0 := by rw [onModes, if_neg hij]
        simp only [e1, e2, e3, e4]
        simp
    · rw [Finset.sum_eq_single k (fun m _ hm => by rw [(h2 k hk m).1, (h2 k hk m).2.1, Matrix.one_apply_ne (Ne.symm hm)]; ring) (fun h => absurd (Finset.mem_univ k) h), (h2 k hk k).1, (h2 k hk k).2.1,
        Matrix.one_apply_eq, h4 k hk, one_mul, zero_mul, zero_mul, add_zero, add_zero]
      rcases Nat.eq_zero_or_pos (j k) with h0 | h0
      · rw [h0, root_zero, zero_mul, onModes, if_neg fun h => by have := h k hk; simp [h0] at this, mul_zero]
      · by_cases hij : ∀ x, x ∉ Set.range f → (i + Pi.single k 1 : κ → ℕ) x = j x
        · have hik : i k + 1 = j k := by have := hij k hk; simpa using this
          have hij' : ∀ x, x ∉ Set.range f → i x = (j - Pi.single k 1 : κ → ℕ) x := fun x hx => by
            by_cases hxk : x = k
            · subst hxk; simp; omega
            · have := hij x hx
              simpa [Pi.single_eq_of_ne hxk] using this
          rw [onModes, onModes, if_pos hij, if_pos hij', (single_off_comp i k hk).1, (single_off_comp j k hk).2, hik]
        · have hij' : ¬ ∀ x, x ∉ Set.range f → i x = (j - Pi.single k 1 : κ → ℕ) x := fun h => hij fun x hx => by
            by_cases hxk : x = k
            · subst hxk
              have := h x hx
              simp at this ⊢
              omega
            · have := h x hx
              simpa [Pi.single_eq_of_ne hxk] using this
          rw [onModes, onModes, if_neg hij, if_neg hij', mul_zero, mul_zero]
  · intro k i j
    by_cases hk : k ∈ Set.range f
    · obtain ⟨a, rfl⟩ := hk
      rw [← Fintype.sum_of_injective f hf (fun m => (starRingEnd ℂ) (E a m) * (root (j (f m) + 1) * onModes f U i (j + Pi.single (f m) 1)) + (starRingEnd ℂ) (F a m) * (root (j (f m)) * onModes f U i (j - Pi.single (f m) 1))) _
        (fun m hm => by rw [(hoff a m hm).1, (hoff a m hm).2, map_zero]; ring) (fun m => by rw [(h1 a m).1, (h1 a m).2]), h3]
      by_cases hij : ∀ x, x ∉ Set.range f → i x = j x
      · have e1 : onModes f U (i - Pi.single (f a) 1) j = U (i ∘ f - Pi.single a 1) (j ∘ f) := by
          rw [onModes, if_pos fun x hx => (single_off i a x hx).2.trans (hij x hx), (single_comp hf i a).2]
        have e2 : ∀ m, onModes f U i (j - Pi.single (f m) 1) = U (i ∘ f) (j ∘ f - Pi.single m 1) := fun m => by
          rw [onModes, if_pos fun x hx => (hij x hx).trans (single_off j m x hx).2.symm, (single_comp hf j m).2]
        have e3 : ∀ m, onModes f U i (j + Pi.single (f m) 1) = U (i ∘ f) (j ∘ f + Pi.single m 1) := fun m => by
          rw [onModes, if_pos fun x hx => (hij x hx).trans (single_off j m x hx).1.symm, (single_comp hf j m).1]
        have e4 : onModes f U i j = U (i ∘ f) (j ∘ f) := by rw [onModes, if_pos hij]
        simp only [e1, e2, e3, e4]
        exact hU.cre a (i ∘ f) (j ∘ f)
      · have e1 : onModes f U (i - Pi.single (f a) 1) j = 0 := by
          rw [onModes, if_neg fun h => hij fun x hx => (single_off i a x hx).2.symm.trans (h x hx)]
        have e2 : ∀ m, onModes f U i (j - Pi.single (f m) 1) = 0 := fun m => by
          rw [onModes, if_neg fun h => hij fun x hx => (h x hx).trans (single_off j m x hx).2]
        have e3 : ∀ m, onModes f U i (j + Pi.single (f m) 1) = 0 := fun m => by
          rw [onModes, if_neg fun h => hij fun x hx => (h x hx).trans (single_off j m x hx).1]
        have e4 : onModes f U i j = 0 := by rw [onModes, if_neg hij]
        simp only [e1, e2, e3, e4]
        simp
    · rw [Finset.sum_eq_single k (fun m _ hm => by rw [(h2 k hk m).1, (h2 k hk m).2.1, Matrix.one_apply_ne (Ne.symm hm), map_zero]; ring) (fun h => absurd (Finset.mem_univ k) h), (h2 k hk k).1, (h2 k hk k).2.1,
        Matrix.one_apply_eq, h4 k hk, map_zero, map_one, one_mul, zero_mul, zero_mul, add_zero, add_zero]
      rcases Nat.eq_zero_or_pos (i k) with h0 | h0
      · rw [h0, root_zero, zero_mul, onModes, if_neg fun h => by have := h k hk; simp [h0] at this, mul_zero]
      · by_cases hij : ∀ x, x ∉ Set.range f → i x = (j + Pi.single k 1 : κ → ℕ) x
        · have hik : i k = j k + 1 := by have := hij k hk; simpa using this
          have hij' : ∀ x, x ∉ Set.range f → (i - Pi.single k 1 : κ → ℕ) x = j x := fun x hx => by
            by_cases hxk : x = k
            · subst hxk; simp; omega
            · have := hij x hx
              simpa [Pi.single_eq_of_ne hxk] using this
          rw [onModes, onModes, if_pos hij, if_pos hij', (single_off_comp j k hk).1, (single_off_comp i k hk).2, hik]
        · have hij' : ¬ ∀ x, x ∉ Set.range f → (i - Pi.single k 1 : κ → ℕ) x = j x := fun h => hij fun x hx => by
            by_cases hxk : x = k
            · subst hxk
              have := h x hx
              simp at this ⊢
              omega
            · have := h x hx
              simpa [Pi.single_eq_of_ne hxk] using this
          rw [onModes, onModes, if_neg hij, if_neg hij', mul_zero, mul_zero]

/-- the Gaussian unitary of an embedded symplectic matrix -/
theorem onModes_gaussian (hf : Function.Injective f) {S : Matrix (ι ⊕ ι) (ι ⊕ ι) ℝ} {α : ι → ℂ} {α' : κ → ℂ} {U : (ι → ℕ) → (ι → ℕ) → ℂ} (hU : IsGaussianUnitary S α U)
    (h3 : ∀ a, α' (f a) = α a) (h4 : ∀ k, k ∉ Set.range f → α' k = 0) : IsGaussianUnitary (embed (both f) S) α' (onModes f U) := by
  refine ⟨onModes_heis hf hU.heisenberg (fun a b => ?_) (fun k hk m => ?_) h3 h4, onModes_unitary hf hU.unitary⟩
  · have e := embed_apply (both f) (both_injective f hf) S
    have e1 := e (.inl a) (.inl b); have e2 := e (.inl a) (.inr b); have e3 := e (.inr a) (.inl b); have e4 := e (.inr a) (.inr b)
    simp only [both, Sum.map_inl, Sum.map_inr] at e1 e2 e3 e4
    simp only [bogE, bogF, of_apply, both, e1, e2, e3, e4, and_self]
  · have hl : ∀ p, both f p ≠ .inl k := by rintro (a | a) h <;> simp [both] at h; exact hk ⟨a, h⟩
    have hr : ∀ p, both f p ≠ .inr k := by rintro (a | a) h <;> simp [both] at h; exact hk ⟨a, h⟩
    have l1 := fun q => embed_apply_left (both f) S (.inl k) q hl
    have l2 := fun q => embed_apply_left (both f) S (.inr k) q hr
    have r1 := fun q => embed_apply_right (both f) S q (.inl k) hl
    have r2 := fun q => embed_apply_right (both f) S q (.inr k) hr
    simp only [bogE, bogF, of_apply, l1, l2, r1, r2, Matrix.one_apply, Sum.inl.injEq, Sum.inr.injEq, reduceCtorEq, if_false]
    refine ⟨?_, ?_, ?_, ?_⟩ <;> apply Complex.ext <;> simp <;> split_ifs <;> norm_num

/-- the product of one-mode unitaries -/
theorem product_gaussian {S : Matrix (Fin 1 ⊕ Fin 1) (Fin 1 ⊕ Fin 1) ℝ} {a : Fin 1 → ℂ} {U : (Fin 1 → ℕ) → (Fin 1 → ℕ) → ℂ} (hU : IsGaussianUnitary S a U)
    (C : Matrix (ι ⊕ ι) (ι ⊕ ι) ℝ) (hC : C = fromBlocks (S (.inl 0) (.inl 0) • 1) (S (.inl 0) (.inr 0) • 1) (S (.inr 0) (.inl 0) • 1) (S (.inr 0) (.inr 0) • 1)) :
    IsGaussianUnitary C (fun _ => a 0) fun i j : ι → ℕ => ∏ k, U (fun _ => i k) fun _ => j k := by
  have hE : ∀ k m, bogE C k m = if k = m then bogE S 0 0 else 0 := by
    intro k m
    rw [hC]
    simp only [bogE, of_apply, fromBlocks_apply₁₁, fromBlocks_apply₁₂, fromBlocks_apply₂₁, fromBlocks_apply₂₂, Matrix.smul_apply, Matrix.one_apply, smul_eq_mul]
    split_ifs <;> apply Complex.ext <;> simp
  have hF : ∀ k m, bogF C k m = if k = m then bogF S 0 0 else 0 := by
    intro k m
    rw [hC]
    simp only [bogF, of_apply, fromBlocks_apply₁₁, fromBlocks_apply₁₂, fromBlocks_apply₂₁, fromBlocks_apply₂₂, Matrix.smul_apply, Matrix.one_apply, smul_eq_mul]
    split_ifs <;> apply Complex.ext <;> simp
  have hfac : ∀ (k : ι) (i j : ι → ℕ), ∏ m, U (fun _ => i m) (fun _ => j m) = U (fun _ => i k) (fun _ => j k) * ∏ m ∈ Finset.univ.erase k, U (fun _ => i m) (fun _ => j m) :=
    fun k i j => (Finset.mul_prod_erase _ (fun m => U (fun _ => i m) fun _ => j m) (Finset.mem_univ k)).symm
  have herase : ∀ (k : ι) (i i' j j' : ι → ℕ), (∀ m, m ≠ k → i m = i' m) → (∀ m, m ≠ k → j m = j' m) →
      ∏ m ∈ Finset.univ.erase k, U (fun _ => i m) (fun _ => j m) = ∏ m ∈ Finset.univ.erase k, U (fun _ => i' m) (fun _ => j' m) := fun k i i' j j' hi hj =>
    Finset.prod_congr rfl fun m hm => by rw [hi m (Finset.ne_of_mem_erase hm), hj m (Finset.ne_of_mem_erase hm)]
  have hp : ∀ (i : ι → ℕ) (k m : ι), m ≠ k → (i + Pi.single k 1 : ι → ℕ) m = i m := fun i k m h => by simp [Pi.single_eq_of_ne h]
  have hm : ∀ (i : ι → ℕ) (k m : ι), m ≠ k → (i - Pi.single k 1 : ι → ℕ) m = i m := fun i k m h => by simp [Pi.single_eq_of_ne h]
  have up : ∀ (i : ι → ℕ) (k : ι), (fun _ : Fin 1 => (i + Pi.single k 1 : ι → ℕ) k) = (fun _ : Fin 1 => i k) + Pi.single 0 1 := fun i k => by funext x; fin_cases x; simp
  have dn : ∀ (i : ι → ℕ) (k : ι), (fun _ : Fin 1 => (i - Pi.single k 1 : ι → ℕ) k) = (fun _ : Fin 1 => i k) - Pi.single 0 1 := fun i k => by funext x; fin_cases x; simp
  refine ⟨⟨fun k i j => ?_, fun k i j => ?_⟩, ⟨fun j k => ?_, fun j k => ?_⟩⟩
  · rw [Finset.sum_eq_single k (fun m _ hmk => by rw [hE, hF, if_neg (Ne.symm hmk), if_neg (Ne.symm hmk)]; ring) (fun h => absurd (Finset.mem_univ k) h), hE, hF, if_pos rfl, if_pos rfl]
    rw [hfac k (i + Pi.single k 1) j, hfac k i (j - Pi.single k 1), hfac k i (j + Pi.single k 1), hfac k i j, herase k (i + Pi.single k 1) i j j (hp i k) (fun _ _ => rfl),
      herase k i i (j - Pi.single k 1) j (fun _ _ => rfl) (hm j k), herase k i i (j + Pi.single k 1) j (fun _ _ => rfl) (hp j k), up, up, dn]
    have := hU.heisenberg.ann 0 (fun _ => i k) fun _ => j k
    rw [Fin.sum_univ_one] at this
    linear_combination (∏ m ∈ Finset.univ.erase k, U (fun _ => i m) fun _ => j m) * this
  · rw [Finset.sum_eq_single k (fun m _ hmk => by rw [hE, hF, if_neg (Ne.symm hmk), if_neg (Ne.symm hmk), map_zero]; ring) (fun h => absurd (Finset.mem_univ k) h), hE, hF, if_pos rfl, if_pos rfl]
    rw [hfac k (i - Pi.single k 1) j, hfac k i (j - Pi.single k 1), hfac k i (j + Pi.single k 1), hfac k i j, herase k (i - Pi.single k 1) i j j (hm i k) (fun _ _ => rfl),
      herase k i i (j - Pi.single k 1) j (fun _ _ => rfl) (hm j k), herase k i i (j + Pi.single k 1) j (fun _ _ => rfl) (hp j k), up, dn, dn]
    have := hU.heisenberg.cre 0 (fun _ => i k) fun _ => j k
    rw [Fin.sum_univ_one] at this
    linear_combination (∏ m ∈ Finset.univ.erase k, U (fun _ => i m) fun _ => j m) * this
  · have hdelta : (∏ x, if j x = k x then (1 : ℂ) else 0) = if j = k then 1 else 0 := by
      by_cases h : j = k
      · subst h; simp
      · rw [if_neg h]
        obtain ⟨x, hx⟩ : ∃ x, j x ≠ k x := by by_contra h2; push Not at h2; exact h (funext h2)
        exact Finset.prod_eq_zero (Finset.mem_univ x) (if_neg hx)
    rw [← hdelta]
    have h1 := hasSum_pi_prod (ι := ι) (f := fun x n => (starRingEnd ℂ) (U (fun _ => n) fun _ => j x) * U (fun _ => n) fun _ => k x) (a := fun x => if j x = k x then (1 : ℂ) else 0) fun x => by
      have := hU.unitary.cols (fun _ => j x) fun _ => k x
      rw [← (Equiv.funUnique (Fin 1) ℕ).symm.hasSum_iff] at this
      have e : ((fun _ : Fin 1 => j x) = fun _ => k x) ↔ j x = k x := ⟨fun h => congrFun h 0, fun h => by rw [h]⟩
      simp only [e] at this
      exact this
    refine h1.congr_fun fun n => ?_
    rw [map_prod, ← Finset.prod_mul_distrib]
  · have hdelta : (∏ x, if j x = k x then (1 : ℂ) else 0) = if j = k then 1 else 0 := by
      by_cases h : j = k
      · subst h; simp
      · rw [if_neg h]
        obtain ⟨x, hx⟩ : ∃ x, j x ≠ k x := by by_contra h2; push Not at h2; exact h (funext h2)
        exact Finset.prod_eq_zero (Finset.mem_univ x) (if_neg hx)
    rw [← hdelta]
    have h1 := hasSum_pi_prod (ι := ι) (f := fun x n => (starRingEnd ℂ) (U (fun _ => j x) fun _ => n) * U (fun _ => k x) fun _ => n) (a := fun x => if j x = k x then (1 : ℂ) else 0) fun x => by
      have := hU.unitary.rows (fun _ => j x) fun _ => k x
      rw [← (Equiv.funUnique (Fin 1) ℕ).symm.hasSum_iff] at this
      have e : ((fun _ : Fin 1 => j x) = fun _ => k x) ↔ j x = k x := ⟨fun h => congrFun h 0, fun h => by rw [h]⟩
      simp only [e] at this
      exact this
    refine h1.congr_fun fun n => ?_
    rw [map_prod, ← Finset.prod_mul_distrib]

end general

/-- the `a`-th listed mode -/
def listed {M N : ℕ} (modes : List ℕ) (hl : modes.length = M) (hb : ∀ m ∈ modes, m < N) (a : Fin M) : Fin N := ⟨modes[(a : ℕ)]'(by omega), hb _ (List.getElem_mem _)⟩

theorem listed_injective {M N : ℕ} (modes : List ℕ) (hl : modes.length = M) (hn : modes.Nodup) (hb : ∀ m ∈ modes, m < N) : Function.Injective (listed modes hl hb) := fun a b h =>
  Fin.ext ((List.Nodup.getElem_inj_iff hn).mp (Fin.mk.inj h))

theorem listed_range {M N : ℕ} (modes : List ℕ) (hl : modes.length = M) (hb : ∀ m ∈ modes, m < N) (k : Fin N) : k ∈ Set.range (listed modes hl hb) ↔ (k : ℕ) ∈ modes := by
  constructor
  · rintro ⟨a, rfl⟩
    exact List.getElem_mem _
  · intro h
    obtain ⟨i, hi, e⟩ := List.getElem_of_mem h
    exact ⟨⟨i, by omega⟩, Fin.ext e⟩

/-- the expanded matrix as an embedding, one listed mode included -/
theorem expand_embed (M : ℕ) (S : ℕ → ℕ → ℝ) (modes : List ℕ) (N : ℕ) (hl : modes.length = M) (hn : modes.Nodup) (hb : ∀ m ∈ modes, m < N) :
    ∃ out, expand (2 * M) S modes N = .ok out ∧ phase N N out = embed (both (listed modes hl hb)) (phase M M S) := by
  by_cases h1 : M = 1
  · obtain ⟨out, ho, he, hi⟩ := expand_entries M S modes N hl hn hb
    have hg : ∀ a : Fin M, modes.getD a 0 = (listed modes hl hb a : ℕ) := fun a => List.getD_eq_getElem _ _ (by omega)
    refine ⟨out, ho, embed_congr _ (both_injective _ (listed_injective modes hl hn hb)) _ _ ?_ ?_ ?_⟩
    · rintro (a | a) (b | b) <;> simp only [both, Sum.map_inl, Sum.map_inr, phase, of_apply, quad, Sum.elim_inl, Sum.elim_inr, ← hg]
      · exact (he a a.2 b b.2).1
      · exact (he a a.2 b b.2).2.1
      · exact (he a a.2 b b.2).2.2.1
      · exact (he a a.2 b b.2).2.2.2
    · intro k l hk
      have hkm : (if quad N k < N then quad N k else quad N k - N) ∉ modes := by
        rcases k with k | k
        · simp only [quad, Sum.elim_inl, k.2, if_true]
          intro h
          obtain ⟨a, ha⟩ := (listed_range modes hl hb k).mpr h
          exact hk (.inl a) (by simp [both, ha])
        · simp only [quad, Sum.elim_inr, not_lt.mpr (Nat.le_add_right N _), if_false, Nat.add_sub_cancel_left]
          intro h
          obtain ⟨a, ha⟩ := (listed_range modes hl hb k).mpr h
          exact hk (.inr a) (by simp [both, ha])
      have := (hi (quad N k) (quad_lt N k) (quad N l) (quad_lt N l) hkm).1
      rw [phase, of_apply, this, Matrix.one_apply]
      exact if_congr (quad_injective N).eq_iff rfl rfl
    · intro k l hk
      have hkm : (if quad N l < N then quad N l else quad N l - N) ∉ modes := by
        rcases l with k | k
        · simp only [quad, Sum.elim_inl, k.2, if_true]
          intro h
          obtain ⟨a, ha⟩ := (listed_range modes hl hb k).mpr h
          exact hk (.inl a) (by simp [both, ha])
        · simp only [quad, Sum.elim_inr, not_lt.mpr (Nat.le_add_right N _), if_false, Nat.add_sub_cancel_left]
          intro h
          obtain ⟨a, ha⟩ := (listed_range modes hl hb k).mpr h
          exact hk (.inr a) (by simp [both, ha])
      have := (hi (quad N l) (quad_lt N l) (quad N k) (quad_lt N k) hkm).2
      rw [phase, of_apply, this, Matrix.one_apply]
      exact if_congr (quad_injective N).eq_iff rfl rfl
  · exact expand_multi M h1 S modes N hl hn hb

/-- **C83** `expand(S, modes, N)` (symplectic.py:64-115) embeds a gate: when `U` is a Gaussian unitary of the `M`-mode matrix `S`, displacing by `α`, the operator that acts as `U` on the listed modes and as the
identity on the other modes is a Gaussian unitary of the returned matrix, displacing the listed modes by `α` and the others by nothing. -/
theorem expand_gaussian (M N : ℕ) (S : ℕ → ℕ → ℝ) (modes : List ℕ) (hl : modes.length = M) (hn : modes.Nodup) (hb : ∀ m ∈ modes, m < N)
    (α : Fin M → ℂ) (U : (Fin M → ℕ) → (Fin M → ℕ) → ℂ) (hU : IsGaussianUnitary (phase M M S) α U) (α' : Fin N → ℂ) (h1 : ∀ a, α' (listed modes hl hb a) = α a)
    (h2 : ∀ k : Fin N, (k : ℕ) ∉ modes → α' k = 0) :
    ∃ out, expand (2 * M) S modes N = .ok out ∧ IsGaussianUnitary (phase N N out) α' fun i j : Fin N → ℕ =>
      if ∀ k : Fin N, (k : ℕ) ∉ modes → i k = j k then U (fun a => i (listed modes hl hb a)) (fun a => j (listed modes hl hb a)) else 0 := by
  obtain ⟨out, ho, hp⟩ := expand_embed M S modes N hl hn hb
  refine ⟨out, ho, ?_⟩
  have := onModes_gaussian (listed_injective modes hl hn hb) hU h1 fun k hk => h2 k fun h => hk ((listed_range modes hl hb k).mpr h)
  rw [hp]
  have e : onModes (listed modes hl hb) U = fun i j : Fin N → ℕ =>
      if ∀ k : Fin N, (k : ℕ) ∉ modes → i k = j k then U (fun a => i (listed modes hl hb a)) (fun a => j (listed modes hl hb a)) else 0 := by
    funext i j
    have hc : (∀ k, k ∉ Set.range (listed modes hl hb) → i k = j k) ↔ ∀ k : Fin N, (k : ℕ) ∉ modes → i k = j k := forall_congr' fun k => by rw [listed_range]
    unfold onModes
    by_cases h : ∀ k : Fin N, (k : ℕ) ∉ modes → i k = j k
    · rw [if_pos h, if_pos (hc.mpr h)]; rfl
    · rw [if_neg h, if_neg (mt hc.mp h)]
  rw [← e]
  exact this

/-- **C83** a single-mode gate expanded to a list of modes acts on each of the listed modes: the product of the one-mode matrix elements over the listed modes, and the identity elsewhere. -/
theorem expand_gaussian_single (N : ℕ) (S : ℕ → ℕ → ℝ) (modes : List ℕ) (hb : ∀ m ∈ modes, m < N)
    (a : ℂ) (U : (Fin 1 → ℕ) → (Fin 1 → ℕ) → ℂ) (hU : IsGaussianUnitary (phase 1 1 S) (fun _ => a) U) :
    ∃ out, expand 2 S modes N = .ok out ∧ IsGaussianUnitary (phase N N out) (fun k => if (k : ℕ) ∈ modes then a else 0) fun i j : Fin N → ℕ =>
      ∏ k : Fin N, if (k : ℕ) ∈ modes then U (fun _ => i k) (fun _ => j k) else if i k = j k then 1 else 0 := by
  obtain ⟨out, ho, hp⟩ := expand_single S modes N hb
  refine ⟨out, ho, ?_⟩
  have hC : copies {k : Fin N // (k : ℕ) ∈ modes} S = fromBlocks (phase 1 1 S (.inl 0) (.inl 0) • 1) (phase 1 1 S (.inl 0) (.inr 0) • 1) (phase 1 1 S (.inr 0) (.inl 0) • 1) (phase 1 1 S (.inr 0) (.inr 0) • 1) := rfl
  have h0 := product_gaussian (ι := {k : Fin N // (k : ℕ) ∈ modes}) hU _ hC
  have := onModes_gaussian (f := (Subtype.val : {k : Fin N // (k : ℕ) ∈ modes} → Fin N)) Subtype.val_injective h0 (α' := fun k => if (k : ℕ) ∈ modes then a else 0)
    (fun k => if_pos k.2) fun k hk => if_neg fun h => hk ⟨⟨k, h⟩, rfl⟩
  rw [hp]
  have e : onModes (Subtype.val : {k : Fin N // (k : ℕ) ∈ modes} → Fin N) (fun i j => ∏ k, U (fun _ => i k) fun _ => j k) = fun i j : Fin N → ℕ =>
      ∏ k : Fin N, if (k : ℕ) ∈ modes then U (fun _ => i k) (fun _ => j k) else if i k = j k then 1 else 0 := by
    classical
    funext i j
    unfold onModes
    split_ifs with h
    · rw [← Fintype.prod_of_injective (Subtype.val : {k : Fin N // (k : ℕ) ∈ modes} → Fin N) Subtype.val_injective (fun k => U (fun _ => i k) fun _ => j k) _
        (fun k hk => ?_) fun k => by rw [if_pos k.2]]
      · rfl
      · rw [if_neg fun hm => hk ⟨⟨k, hm⟩, rfl⟩, if_pos (h k hk)]
    · push Not at h
      obtain ⟨k, hk, hij⟩ := h
      exact (Finset.prod_eq_zero (Finset.mem_univ k) (by rw [if_neg fun hm => hk ⟨⟨k, hm⟩, rfl⟩, if_neg hij])).symm
  rw [← e]
  exact this

/-- **C83** the displacement of `expand_vector(alpha, mode, N, hbar)` (symplectic.py:118-134): the operator `D(alpha)` on one mode and the identity elsewhere displaces the means by that vector. -/
theorem expandVector_gaussian (alpha : ℂ) (mode N : ℕ) (hbar : ℝ) (hm : mode < N) (U : (Fin 1 → ℕ) → (Fin 1 → ℕ) → ℂ) (hU : IsGaussianUnitary 1 (fun _ => alpha) U) :
    ∃ v, expandVector alpha mode N hbar = .ok v ∧ ∃ α' : Fin N → ℂ, cohQuad hbar α' = phaseVec N v ∧ IsGaussianUnitary 1 α' fun i j : Fin N → ℕ =>
      if ∀ k : Fin N, (k : ℕ) ≠ mode → i k = j k then U (fun _ => i ⟨mode, hm⟩) (fun _ => j ⟨mode, hm⟩) else 0 := by
  refine ⟨_, by rw [expandVector, if_neg (by omega)], fun k => if (k : ℕ) = mode then alpha else 0, ?_, ?_⟩
  · funext p
    rcases p with k | k
    · have h1 : (k : ℕ) ≠ N + mode := by omega
      simp only [cohQuad, phaseVec, quad, Sum.elim_inl, Function.update_of_ne h1]
      by_cases h : (k : ℕ) = mode
      · simp [h]
      · simp [h]
    · by_cases h : (k : ℕ) = mode
      · simp [cohQuad, phaseVec, quad, h]
      · have h1 : N + (k : ℕ) ≠ N + mode := by omega
        have h2 : N + (k : ℕ) ≠ mode := by omega
        simp [cohQuad, phaseVec, quad, h, h1, h2]
  · have hf : Function.Injective (fun _ : Fin 1 => (⟨mode, hm⟩ : Fin N)) := fun a b _ => Subsingleton.elim a b
    have hr : ∀ k : Fin N, k ∈ Set.range (fun _ : Fin 1 => (⟨mode, hm⟩ : Fin N)) ↔ (k : ℕ) = mode := fun k => by
      constructor
      · rintro ⟨_, rfl⟩; rfl
      · intro h; exact ⟨0, Fin.ext h.symm⟩
    have := onModes_gaussian (f := fun _ : Fin 1 => (⟨mode, hm⟩ : Fin N)) hf hU (α' := fun k => if (k : ℕ) = mode then alpha else 0) (fun _ => if_pos rfl)
      fun k hk => if_neg fun h => hk ((hr k).mpr h)
    have e1 : embed (both fun _ : Fin 1 => (⟨mode, hm⟩ : Fin N)) (1 : Matrix (Fin 1 ⊕ Fin 1) (Fin 1 ⊕ Fin 1) ℝ) = 1 :=
      (embed_congr _ (both_injective _ hf) _ _ (fun i j => by simp [Matrix.one_apply, (both_injective _ hf).eq_iff]) (fun _ _ _ => rfl) fun _ _ _ => rfl).symm
    rw [e1] at this
    have e : onModes (fun _ : Fin 1 => (⟨mode, hm⟩ : Fin N)) U = fun i j : Fin N → ℕ =>
        if ∀ k : Fin N, (k : ℕ) ≠ mode → i k = j k then U (fun _ => i ⟨mode, hm⟩) (fun _ => j ⟨mode, hm⟩) else 0 := by
      funext i j
      have hc : (∀ k, k ∉ Set.range (fun _ : Fin 1 => (⟨mode, hm⟩ : Fin N)) → i k = j k) ↔ ∀ k : Fin N, (k : ℕ) ≠ mode → i k = j k := forall_congr' fun k => by rw [hr]
      unfold onModes
      by_cases h : ∀ k : Fin N, (k : ℕ) ≠ mode → i k = j k
      · rw [if_pos h, if_pos (hc.mpr h)]; rfl
      · rw [if_neg h, if_neg (mt hc.mp h)]
    rw [← e]
    exact this

/-- the hypotheses are met: a two-mode squeezer on modes 2 and 0 of three, and a squeezer on modes 0 and 2 of four -/
example (r theta : ℝ) : ∃ out U, expand 4 (Symp.twoModeSqueezing r theta) [2, 0] 3 = .ok out ∧ IsGaussianUnitary (phase 3 3 out) 0 U ∧ U 0 0 ≠ 0 := by
  obtain ⟨⟨U, hU, -⟩, -⟩ := twoModeSqueezing_gaussian r theta
  obtain ⟨out, ho, hg⟩ := expand_gaussian 2 3 (Symp.twoModeSqueezing r theta) [2, 0] rfl (by simp) (by simp) 0 U hU 0 (fun _ => rfl) fun _ _ => rfl
  refine ⟨out, _, ho, hg, ?_⟩
  have := gaussianUnitary_vacuum (twoModeSqueezing_symplectic r theta) hU
  have e : U 0 0 = U (fun _ => 0) fun _ => 0 := rfl
  simpa [e] using this

example (r theta : ℝ) : ∃ out U, expand 2 (Symp.squeezing [r] (some [theta])) [0, 2] 4 = .ok out ∧ IsGaussianUnitary (phase 4 4 out) 0 U := by
  obtain ⟨⟨U, hU, -⟩, -⟩ := squeezing_gaussian r theta
  obtain ⟨out, ho, hg⟩ := expand_gaussian_single 4 (Symp.squeezing [r] (some [theta])) [0, 2] (by simp) 0 U hU
  have e : (fun k : Fin 4 => if (k : ℕ) ∈ ([0, 2] : List ℕ) then (0 : ℂ) else 0) = 0 := by funext k; simp
  rw [e] at hg
  exact ⟨out, _, ho, hg⟩

end Verif.Props
