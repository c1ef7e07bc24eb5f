/-
C18 and C60: the reference implementation of the montrealer and the loop montrealer, and its helpers.
-/
import Verif.Lemmas.RefMontrealer
import Verif.Props.Montrealer
import Mathlib.Data.List.Forall2

set_option linter.unusedSectionVars false

namespace Verif.Props
open Finset Equiv Verif.Model Verif.Model.Reference Verif.Lemmas.Dih Verif.Lemmas.Mtl Verif.Spec

/-- `bitstrings(n)` lists every string of `n` binary digits that starts with 0, once. -/
theorem bitstrings_enumerates (n : ℕ) (hn : 0 < n) : ∃ l, bitstrings n = .ok l ∧ l.Nodup ∧
    ∀ b : List ℕ, b ∈ l ↔ b.length = n ∧ b.head? = some 0 ∧ ∀ x ∈ b, x = 0 ∨ x = 1 := by
  obtain ⟨m, rfl⟩ : ∃ m, n = m + 1 := ⟨n - 1, by omega⟩
  refine ⟨(allBits m).map (0 :: ·), ?_, List.Nodup.map_on (fun a _ b _ h => by simpa using h) (allBits_nodup m), ?_⟩
  · unfold bitstrings; rw [if_neg (by omega)]; rfl
  · intro b
    rw [List.mem_map]
    constructor
    · rintro ⟨c, hc, rfl⟩
      obtain ⟨h1, h2⟩ := (mem_allBits m c).mp hc
      refine ⟨by simp [h1], rfl, ?_⟩
      intro x hx
      rcases List.mem_cons.mp hx with rfl | hx
      · left; rfl
      · exact h2 x hx
    · rintro ⟨h1, h2, h3⟩
      rcases b with _ | ⟨a, c⟩
      · simp at h1
      · refine ⟨c, (mem_allBits m c).mpr ⟨by simpa using h1, fun x hx => h3 x (by simp [hx])⟩, ?_⟩
        simp at h2; rw [h2]

/-- `bitstrings(0)` raises. -/
theorem bitstrings_zero : bitstrings 0 = .error .valueError := rfl

example : bitstrings 3 = .ok [[0, 0, 0], [0, 0, 1], [0, 1, 0], [0, 1, 1]] := by decide

theorem mapM_ok' {α β : Type} (l : List α) (f : α → Except PyErr β) (g : α → β) (h : ∀ x ∈ l, f x = .ok (g x)) : l.mapM f = .ok (l.map g) := by
  induction l with
  | nil => rfl
  | cons x l ih =>
    rw [List.mapM_cons, h x (by simp), ih fun y hy => h y (by simp [hy])]
    rfl

theorem zip_self_map {α β : Type} (l : List α) (f : α → β) : l.zip (l.map f) = l.map fun x => (x, f x) := by
  have := List.zip_map' (l := l) (f := id) (g := f)
  simpa using this

theorem reps_facts {m : ℕ} (w : Fin (m + 1) → Fin (2 * (m + 1))) (hw : Good (tau (m + 1)) w) (σ : Perm (Fin (2 * (m + 1)))) (hσ : ∀ v, σ (σ v) = v)
    (h : CycRel (tau (m + 1)) σ w) :
    (reps w).Nodup ∧ (∀ i, i ∈ reps w ∨ σ i ∈ reps w) ∧ (∀ i ∈ reps w, σ i ∉ reps w) ∧ ends w = (reps w).map σ := by
  have hinj : ∀ i j, tau (m + 1) (w i) = tau (m + 1) (w j) → i = j := fun i j hij => by
    have := @hw (i, true) (j, true) (by simpa [spread] using hij)
    exact (Prod.ext_iff.mp this).1
  have hinj' : ∀ i j, w i = w j → i = j := fun i j hij => hinj i j (by rw [hij])
  have hnot : ∀ i j, w i ≠ tau (m + 1) (w j) := fun i j hij => by
    have := @hw (i, false) (j, true) (by simpa [spread] using hij)
    simp at this
  have hstep : ∀ k : Fin m, σ (tau (m + 1) (w k.castSucc)) = w k.succ := fun k => by rw [h, Fin.coeSucc_eq_succ]
  have hlast : σ (tau (m + 1) (w (Fin.last m))) = w 0 := by rw [h, Fin.last_add_one]
  have hlast' : σ (w 0) = tau (m + 1) (w (Fin.last m)) := by rw [← hlast, hσ]
  have hstep' : ∀ k : Fin m, σ (w k.succ) = tau (m + 1) (w k.castSucc) := fun k => by rw [← hstep, hσ]
  have hmem : ∀ i, i ∈ reps w ↔ (∃ k : Fin m, tau (m + 1) (w k.castSucc) = i) ∨ i = w 0 := by
    intro i
    unfold reps
    simp
  have hends : ends w = (reps w).map σ := by
    unfold ends reps
    rw [List.map_append, List.map_map]
    congr 1
    · refine List.map_congr_left fun k _ => ?_
      exact (hstep k).symm
    · rw [List.map_cons, hlast']; rfl
  refine ⟨?_, ?_, ?_, hends⟩
  · unfold reps
    refine List.nodup_append.mpr ⟨List.Nodup.map_on (fun a _ b _ h => ?_) (List.nodup_finRange m), by simp, ?_⟩
    · exact Fin.castSucc_injective _ (hinj _ _ h)
    · intro a ha b hb
      obtain ⟨k, -, rfl⟩ := List.mem_map.mp ha
      rw [List.mem_singleton.mp hb]
      exact (hnot 0 k.castSucc).symm
  · intro v
    rw [hmem, hmem]
    rcases good_cover _ w hw (card_V' m) v with ⟨k, rfl⟩ | ⟨k, rfl⟩
    · induction k using Fin.cases with
      | zero => left; right; rfl
      | succ k => right; left; exact ⟨k, (hstep' k).symm⟩
    · induction k using Fin.lastCases with
      | last => right; right; exact hlast
      | cast k => left; left; exact ⟨k, rfl⟩
  · intro v hv hv'
    rw [hmem] at hv hv'
    rcases hv with ⟨k, rfl⟩ | rfl
    · rw [hstep] at hv'
      rcases hv' with ⟨j, hj⟩ | hj
      · exact hnot _ _ hj.symm
      · exact Fin.succ_ne_zero k (hinj' _ _ hj)
    · rw [hlast'] at hv'
      rcases hv' with ⟨j, hj⟩ | hj
      · exact (Fin.castSucc_lt_last j).ne (hinj _ _ hj)
      · exact hnot _ _ hj.symm

/-- the pairs stand for the connected perfect matchings -/
theorem pairs_matchings (m : ℕ) : ∃ (S : List ℕ × List ℕ → Perm (Fin (2 * (m + 1)))) (R : List ℕ × List ℕ → List (Fin (2 * (m + 1)))),
    (∀ x ∈ pairs m, ((∀ i, S x (S x i) = i) ∧ (∀ i, S x i ≠ i) ∧ Connected (S x)) ∧
      ((R x).Nodup ∧ (∀ i, i ∈ R x ∨ S x i ∈ R x) ∧ ∀ i ∈ R x, S x i ∉ R x) ∧
      ∀ objects : List ℕ, objects.Nodup → objects.length = 2 * (m + 1) →
        mapper x.1 x.2 objects = .ok ((R x).map fun i : Fin (2 * (m + 1)) => (objects.getD i 0, objects.getD (S x i) 0))) ∧
    (∀ x ∈ pairs m, ∀ y ∈ pairs m, S x = S y → x = y) ∧
    ∀ σ : Perm (Fin (2 * (m + 1))), (∀ i, σ (σ i) = i) → (∀ i, σ i ≠ i) → Connected σ → ∃ x ∈ pairs m, S x = σ := by
  classical
  obtain ⟨W, h1, h2, h3⟩ := pairs_walks m
  let S : List ℕ × List ℕ → Perm (Fin (2 * (m + 1))) := fun x =>
    if h : Good (tau (m + 1)) (W x) then (cyc_exists (tau (m + 1)) partner_partner (card_V' m) (W x) h).choose else 1
  have hS : ∀ x ∈ pairs m, (∀ v, S x (S x v) = v) ∧ (∀ v, S x v ≠ v) ∧ CycRel (tau (m + 1)) (S x) (W x) := by
    intro x hx
    have h := (h1 x hx).1
    simp only [S, dif_pos h]
    exact (cyc_exists (tau (m + 1)) partner_partner (card_V' m) (W x) h).choose_spec
  refine ⟨S, fun x => reps (W x), ?_, ?_, ?_⟩
  · intro x hx
    obtain ⟨a1, a2, a3⟩ := h1 x hx
    obtain ⟨b1, b2, b3⟩ := hS x hx
    obtain ⟨c1, c2, c3, c4⟩ := reps_facts (W x) a1 (S x) b1 b3
    refine ⟨⟨b1, b2, conn_cyc _ partner_partner (card_V' m) (W x) a1 _ b1 b3⟩, ⟨c1, c2, c3⟩, fun objects ho hl => ?_⟩
    rw [a3 objects ho hl, c4]
    congr 1
    rw [zip_self_map, List.map_map]
    rfl
  · intro x hx y hy h
    apply h2 x hx y hy
    funext k
    have e1 : ∀ k : Fin m, S x (tau (m + 1) (W x k.castSucc)) = W x k.succ := fun k => by rw [(hS x hx).2.2, Fin.coeSucc_eq_succ]
    have e2 : ∀ k : Fin m, S y (tau (m + 1) (W y k.castSucc)) = W y k.succ := fun k => by rw [(hS y hy).2.2, Fin.coeSucc_eq_succ]
    rw [walk_pow _ partner_partner (card_V' m) (W x) (S x) e1, walk_pow _ partner_partner (card_V' m) (W y) (S y) e2, h, (h1 x hx).2.1, (h1 y hy).2.1]
  · intro σ s1 s2 s3
    have hg := good_cyc σ (tau (m + 1)) s1 partner_partner partner_ne s3 (m + 1) (card_V' m) s2 (start m)
    have hr := cycRel_of_conn (tau (m + 1)) partner_partner (card_V' m) partner_ne σ s1 s2 s3 (start m)
    obtain ⟨x, hx, e⟩ := h3 _ hg rfl
    refine ⟨x, hx, ?_⟩
    have := (hS x hx).2.2
    rw [e] at this
    exact cyc_unique (tau (m + 1)) partner_partner (card_V' m) _ hg _ _ (hS x hx).1 s1 this hr

theorem rpmp_eq (m : ℕ) (s : List ℕ) (hl : s.length = 2 * (m + 1)) : rpmp s = (pairs m).mapM fun x => mapper x.1 x.2 s := by
  unfold rpmp
  rw [hl, show 2 * (m + 1) / 2 = m + 1 by omega]
  simp only [bitstrings, Nat.add_sub_cancel, Nat.succ_ne_zero, if_false]
  rfl

/-- `rpmp(s)` yields, for distinct labels, every connected perfect matching exactly once. -/
theorem rpmp_enumerates (n : ℕ) (hn : 0 < n) (s : List ℕ) (hs : s.Nodup) (hl : s.length = 2 * n) :
    ∃ out, rpmp s = .ok out ∧ ∃ L : List (Perm (Fin (2 * n))), L.Nodup ∧ (∀ σ, σ ∈ L ↔ (∀ i, σ (σ i) = i) ∧ (∀ i, σ i ≠ i) ∧ Connected σ) ∧
      List.Forall₂ (Lists s) L out := by
  obtain ⟨m, rfl⟩ : ∃ m, n = m + 1 := ⟨n - 1, by omega⟩
  obtain ⟨S, R, h1, h2, h3⟩ := pairs_matchings m
  refine ⟨(pairs m).map fun x => (R x).map fun i : Fin (2 * (m + 1)) => (s.getD i 0, s.getD (S x i) 0), ?_, (pairs m).map S,
    List.Nodup.map_on h2 (pairs_nodup m), ?_, ?_⟩
  · rw [rpmp_eq m s hl]
    exact mapM_ok' _ _ _ fun x hx => (h1 x hx).2.2 s hs hl
  · intro σ
    rw [List.mem_map]
    constructor
    · rintro ⟨x, hx, rfl⟩
      exact (h1 x hx).1
    · rintro ⟨a, b, c⟩
      exact h3 σ a b c
  · rw [List.forall₂_map_left_iff, List.forall₂_map_right_iff, List.forall₂_same]
    intro x hx
    obtain ⟨-, ⟨c1, c2, c3⟩, -⟩ := h1 x hx
    exact ⟨R x, c1, c2, fun i hi h => absurd h (c3 i hi), rfl⟩

/-! #### Removing an edge of the cycle -/

section unlink
variable {m : ℕ}

/-- the matching `σ` with the edge at `r` replaced by two loops -/
def unlink (σ : Perm (Fin (2 * (m + 1)))) (r : Fin (2 * (m + 1))) : Perm (Fin (2 * (m + 1))) := σ * swap r (σ r)

variable (σ : Perm (Fin (2 * (m + 1)))) (hσ : ∀ i, σ (σ i) = i)
include hσ

theorem unlink_left (r) : unlink σ r r = r := by simp [unlink, hσ]
theorem unlink_right (r) : unlink σ r (σ r) = σ r := by simp [unlink]
theorem unlink_other (r x) (h1 : x ≠ r) (h2 : x ≠ σ r) : unlink σ r x = σ x := by simp [unlink, swap_apply_of_ne_of_ne h1 h2]

theorem unlink_invol (r) : ∀ x, unlink σ r (unlink σ r x) = x := by
  intro x
  by_cases h1 : x = r
  · rw [h1, unlink_left σ hσ, unlink_left σ hσ]
  by_cases h2 : x = σ r
  · rw [h2, unlink_right σ hσ, unlink_right σ hσ]
  rw [unlink_other σ hσ r x h1 h2, unlink_other σ hσ, hσ]
  · intro h; exact h2 (by rw [← h, hσ])
  · intro h; exact h1 (σ.injective h)

theorem unlink_fix (hf : ∀ i, σ i ≠ i) (r x) : unlink σ r x = x ↔ x = r ∨ x = σ r := by
  constructor
  · intro h
    by_contra hn
    push Not at hn
    rw [unlink_other σ hσ r x hn.1 hn.2] at h
    exact hf x h
  · rintro (rfl | rfl)
    · exact unlink_left σ hσ _
    · exact unlink_right σ hσ _

theorem unlink_connected (hf : ∀ i, σ i ≠ i) (hc : Connected σ) (r) : Connected (unlink σ r) := by
  have hg := good_cyc σ (tau (m + 1)) hσ partner_partner partner_ne hc (m + 1) (card_V' m) hf (σ r)
  have hr := cycRel_of_conn (tau (m + 1)) partner_partner (card_V' m) partner_ne σ hσ hf hc (σ r)
  set w := fun k : Fin (m + 1) => ((σ * tau (m + 1)) ^ (k : ℕ)) (σ r) with hw
  have h0 : w 0 = σ r := rfl
  have hl : tau (m + 1) (w (Fin.last m)) = r := by
    have := hr (Fin.last m)
    rw [Fin.last_add_one, h0] at this
    exact σ.injective this
  refine conn_path (tau (m + 1)) partner_partner (card_V' m) w hg _ (unlink_invol σ hσ r) ⟨?_, ?_, ?_⟩
  · rw [h0]; exact unlink_right σ hσ r
  · intro k
    rw [unlink_other σ hσ, hr, Fin.coeSucc_eq_succ]
    · rw [← hl]
      intro h
      have := @hg (k.castSucc, true) (Fin.last m, true) (by simpa [spread] using h)
      have := (Prod.ext_iff.mp this).1
      exact (Fin.castSucc_lt_last k).ne this
    · rw [← h0]
      intro h
      have := @hg (k.castSucc, true) (0, false) (by simpa [spread] using h)
      simp at this
  · rw [hl]; exact unlink_left σ hσ r

theorem relink (r) : unlink σ r * swap r (σ r) = σ := by
  unfold unlink
  rw [mul_assoc, swap_mul_self, mul_one]

end unlink

/-- every connected matching with loops comes from a cycle -/
theorem exists_unlink {m : ℕ} (σ : Perm (Fin (2 * (m + 1)))) (hσ : ∀ i, σ (σ i) = i) (hc : Connected σ) (v : Fin (2 * (m + 1))) (hv : σ v = v) :
    ∃ ρ : Perm (Fin (2 * (m + 1))), (∀ i, ρ (ρ i) = i) ∧ (∀ i, ρ i ≠ i) ∧ Connected ρ ∧ unlink ρ v = σ ∧ unlink ρ (ρ v) = σ := by
  have hg := good_path σ (tau (m + 1)) hσ partner_partner partner_ne hc (m + 1) (card_V' m) v hv
  have hr := pathRel_of_conn (tau (m + 1)) partner_partner (card_V' m) partner_ne σ hσ hc v hv
  set w := fun k : Fin (m + 1) => ((σ * tau (m + 1)) ^ (k : ℕ)) v with hw
  have h0 : w 0 = v := rfl
  obtain ⟨ρ, a1, a2, a3⟩ := cyc_exists (tau (m + 1)) partner_partner (card_V' m) w hg
  have hρv : ρ v = tau (m + 1) (w (Fin.last m)) := by
    rw [← h0]
    conv_lhs => rw [← Fin.last_add_one m, ← a3 (Fin.last m)]
    rw [a1]
  have hnot : ∀ i j, w i ≠ tau (m + 1) (w j) := fun i j hij => by
    have := @hg (i, false) (j, true) (by simpa [spread] using hij)
    simp at this
  have hinj : ∀ i j, tau (m + 1) (w i) = tau (m + 1) (w j) → i = j := fun i j hij => by
    have := @hg (i, true) (j, true) (by simpa [spread] using hij)
    exact (Prod.ext_iff.mp this).1
  have key : unlink ρ v = σ := by
    refine path_unique (tau (m + 1)) partner_partner (card_V' m) w hg _ _ (unlink_invol ρ a1 v) hσ ⟨?_, ?_, ?_⟩ hr
    · rw [h0]; exact unlink_left ρ a1 v
    · intro k
      rw [unlink_other ρ a1, a3, Fin.coeSucc_eq_succ]
      · rw [← h0]; exact (hnot _ _).symm
      · rw [hρv]
        intro h
        exact (Fin.castSucc_lt_last k).ne (hinj _ _ h)
    · rw [← hρv]; exact unlink_right ρ a1 v
  refine ⟨ρ, a1, a2, conn_cyc _ partner_partner (card_V' m) w hg ρ a1 a3, key, ?_⟩
  rw [← key]
  unfold unlink
  rw [a1, swap_comm]

theorem unlink_inj {m : ℕ} (ρ ρ' : Perm (Fin (2 * (m + 1)))) (h1 : ∀ i, ρ (ρ i) = i) (h2 : ∀ i, ρ i ≠ i) (h1' : ∀ i, ρ' (ρ' i) = i) (h2' : ∀ i, ρ' i ≠ i)
    (r r') (h : unlink ρ r = unlink ρ' r') : ρ = ρ' ∧ (r = r' ∨ r = ρ r') := by
  have e : ∀ x, (x = r ∨ x = ρ r) ↔ (x = r' ∨ x = ρ' r') := fun x => by rw [← unlink_fix ρ h1 h2, ← unlink_fix ρ' h1' h2', h]
  have hr := (e r).mp (Or.inl rfl)
  have hr' := (e (ρ r)).mp (Or.inr rfl)
  have hs : swap r (ρ r) = swap r' (ρ' r') := by
    rcases hr with a | a <;> rcases hr' with b | b
    · exact absurd (b.trans a.symm) (h2 r)
    · rw [b, a]
    · rw [a] at b ⊢; rw [b, swap_comm]
    · exact absurd (b.trans a.symm) (h2 r)
  have hρ : ρ = ρ' := by
    rw [← relink ρ h1 r, ← relink ρ' h1' r', h, hs]
  refine ⟨hρ, ?_⟩
  rw [hρ]; exact hr

/-- `splitter` lists the cycle and the cycle without each of its edges -/
theorem splitter_lists {m : ℕ} (s : List ℕ) (σ : Perm (Fin (2 * (m + 1)))) (hσ : ∀ i, σ (σ i) = i) (R : List (Fin (2 * (m + 1)))) (h1 : R.Nodup)
    (h2 : ∀ i, i ∈ R ∨ σ i ∈ R) (h3 : ∀ i ∈ R, σ i ∉ R) :
    List.Forall₂ (Lists s) (σ :: R.map (unlink σ)) (splitter (R.map fun i : Fin (2 * (m + 1)) => (s.getD i 0, s.getD (σ i) 0))) := by
  unfold splitter
  refine List.Forall₂.cons ⟨R, h1, h2, fun i hi h => absurd h (h3 i hi), rfl⟩ ?_
  have hR : R.map (unlink σ) = (List.range R.length).map fun i => unlink σ (R.getD i 0) := by
    refine List.ext_getElem (by simp) fun i a b => ?_
    simp only [List.getElem_map, List.getElem_range]
    rw [List.getD_eq_getElem _ _ (by simpa using a)]
  rw [hR, List.length_map, List.forall₂_map_left_iff, List.forall₂_map_right_iff, List.forall₂_same]
  intro i hi
  rw [List.mem_range] at hi
  beta_reduce
  have hgd : (R.map fun i : Fin (2 * (m + 1)) => (s.getD i 0, s.getD (σ i) 0)).getD i (0, 0) = (s.getD (R[i]) 0, s.getD (σ R[i]) 0) := by
    rw [List.getD_eq_getElem _ _ (by simpa using hi), List.getElem_map]
  rw [hgd, List.getD_eq_getElem _ _ hi]
  set r := R[i] with hr
  have hrR : r ∈ R := List.getElem_mem hi
  have hsplit : R = R.take i ++ r :: R.drop (i + 1) := by
    rw [hr, List.getElem_cons_drop, List.take_append_drop]
  have hperm : (σ r :: (R.drop (i + 1) ++ R.take i ++ [r])).Perm (σ r :: R) := by
    refine List.Perm.cons _ ?_
    conv_rhs => rw [hsplit]
    refine (List.perm_append_singleton r _).trans ?_
    exact (List.perm_append_comm.cons r).trans List.perm_middle.symm
  have hnr : ∀ x ∈ R.drop (i + 1) ++ R.take i, x ∈ R ∧ x ≠ r := by
    intro x hx
    have hnd := hperm.nodup_iff.mpr (List.nodup_cons.mpr ⟨h3 r hrR, h1⟩)
    rw [List.nodup_cons, List.nodup_append] at hnd
    refine ⟨?_, fun h => hnd.2.2.2 x hx r (by simp) h⟩
    rcases List.mem_append.mp hx with h | h
    · exact List.mem_of_mem_drop h
    · exact List.mem_of_mem_take h
  refine ⟨σ r :: (R.drop (i + 1) ++ R.take i ++ [r]), ?_, ?_, ?_, ?_⟩
  · exact hperm.nodup_iff.mpr (List.nodup_cons.mpr ⟨h3 r hrR, h1⟩)
  · intro x
    rw [hperm.mem_iff, hperm.mem_iff]
    by_cases hx1 : x = r
    · left; rw [hx1]; exact List.mem_cons_of_mem _ hrR
    by_cases hx2 : x = σ r
    · left; rw [hx2]; exact List.mem_cons_self
    rw [unlink_other σ hσ r x hx1 hx2]
    rcases h2 x with h | h
    · left; exact List.mem_cons_of_mem _ h
    · right; exact List.mem_cons_of_mem _ h
  · intro x hx hx'
    rw [hperm.mem_iff] at hx hx'
    by_cases hx1 : x = r
    · rw [hx1]; exact unlink_left σ hσ r
    by_cases hx2 : x = σ r
    · rw [hx2]; exact unlink_right σ hσ r
    rw [unlink_other σ hσ r x hx1 hx2] at hx'
    rcases List.mem_cons.mp hx with h | h
    · exact absurd h hx2
    rcases List.mem_cons.mp hx' with h' | h'
    · exact absurd (σ.injective h') hx1
    · exact absurd h' (h3 x h)
  · dsimp only
    rw [List.map_cons, List.map_append, unlink_right σ hσ, List.map_singleton, unlink_left σ hσ, List.singleton_append, List.cons_append, List.cons_append,
      List.append_assoc, ← List.map_drop, ← List.map_take, List.map_append]
    simp only [List.append_assoc]
    congr 2
    · refine List.map_congr_left fun x hx => ?_
      obtain ⟨hx1, hx2⟩ := hnr x (List.mem_append_left _ hx)
      rw [unlink_other σ hσ r x hx2]
      rintro rfl
      exact h3 r hrR hx1
    · congr 1
      refine List.map_congr_left fun x hx => ?_
      obtain ⟨hx1, hx2⟩ := hnr x (List.mem_append_right _ hx)
      rw [unlink_other σ hσ r x hx2]
      rintro rfl
      exact h3 r hrR hx1

/-- `rspm(s)` yields, for distinct labels, every connected matching with loops exactly once. -/
theorem rspm_enumerates (n : ℕ) (hn : 0 < n) (s : List ℕ) (hs : s.Nodup) (hl : s.length = 2 * n) :
    ∃ out, rspm s = .ok out ∧ ∃ L : List (Perm (Fin (2 * n))), L.Nodup ∧ (∀ σ, σ ∈ L ↔ (∀ i, σ (σ i) = i) ∧ Connected σ) ∧
      List.Forall₂ (Lists s) L out := by
  obtain ⟨m, rfl⟩ : ∃ m, n = m + 1 := ⟨n - 1, by omega⟩
  obtain ⟨S, R, h1, h2, h3⟩ := pairs_matchings m
  refine ⟨((pairs m).map fun x => (R x).map fun i : Fin (2 * (m + 1)) => (s.getD i 0, s.getD (S x i) 0)).flatMap splitter, ?_,
    (pairs m).flatMap fun x => S x :: (R x).map (unlink (S x)), ?_, ?_, ?_⟩
  · unfold rspm
    rw [rpmp_eq m s hl, mapM_ok' _ _ _ fun x hx => (h1 x hx).2.2 s hs hl]
    rfl
  · rw [List.nodup_flatMap]
    constructor
    · intro x hx
      obtain ⟨⟨a1, a2, -⟩, ⟨c1, c2, c3⟩, -⟩ := h1 x hx
      rw [List.nodup_cons]
      constructor
      · intro hmem
        obtain ⟨r, hr, e⟩ := List.mem_map.mp hmem
        apply a2 r
        rw [← e]; exact unlink_left (S x) a1 r
      · refine List.Nodup.map_on (fun r hr r' hr' e => ?_) c1
        rcases (unlink_inj _ _ a1 a2 a1 a2 r r' e).2 with h | h
        · exact h
        · exact absurd (h ▸ hr) (c3 r' hr')
    · refine (List.Pairwise.and_mem.mp (pairs_nodup m)).imp ?_
      rintro x y ⟨hx, hy, hne⟩ σ hσ hσ'
      obtain ⟨⟨a1, a2, -⟩, -, -⟩ := h1 x hx
      obtain ⟨⟨b1, b2, -⟩, -, -⟩ := h1 y hy
      apply hne
      apply h2 x hx y hy
      rcases List.mem_cons.mp hσ with e | e <;> rcases List.mem_cons.mp hσ' with e' | e'
      · rw [← e, e']
      · obtain ⟨r, -, er⟩ := List.mem_map.mp e'
        exact absurd (by rw [← e, ← er]; exact unlink_left _ b1 r) (a2 r)
      · obtain ⟨r, -, er⟩ := List.mem_map.mp e
        exact absurd (by rw [← e', ← er]; exact unlink_left _ a1 r) (b2 r)
      · obtain ⟨r, -, er⟩ := List.mem_map.mp e
        obtain ⟨r', -, er'⟩ := List.mem_map.mp e'
        exact (unlink_inj _ _ a1 a2 b1 b2 r r' (er.trans er'.symm)).1
  · intro σ
    rw [List.mem_flatMap]
    constructor
    · rintro ⟨x, hx, hσ⟩
      obtain ⟨⟨a1, a2, a3⟩, -, -⟩ := h1 x hx
      rcases List.mem_cons.mp hσ with rfl | h
      · exact ⟨a1, a3⟩
      · obtain ⟨r, -, rfl⟩ := List.mem_map.mp h
        exact ⟨unlink_invol _ a1 r, unlink_connected _ a1 a2 a3 r⟩
    · rintro ⟨a, c⟩
      by_cases hf : ∀ i, σ i ≠ i
      · obtain ⟨x, hx, e⟩ := h3 σ a hf c
        exact ⟨x, hx, by rw [e]; exact List.mem_cons_self⟩
      · push Not at hf
        obtain ⟨v, hv⟩ := hf
        obtain ⟨ρ, b1, b2, b3, b4, b5⟩ := exists_unlink σ a c v hv
        obtain ⟨x, hx, e⟩ := h3 ρ b1 b2 b3
        obtain ⟨-, ⟨c1, c2, c3⟩, -⟩ := h1 x hx
        refine ⟨x, hx, List.mem_cons_of_mem _ ?_⟩
        rw [e] at c2 ⊢
        rcases c2 v with h | h
        · exact List.mem_map.mpr ⟨v, h, b4⟩
        · exact List.mem_map.mpr ⟨_, h, b5⟩
  · rw [List.flatMap_map]
    have : ∀ l : List (List ℕ × List ℕ), (∀ x ∈ l, x ∈ pairs m) → List.Forall₂ (Lists s) (l.flatMap fun x => S x :: (R x).map (unlink (S x)))
        (l.flatMap fun x => splitter ((R x).map fun i : Fin (2 * (m + 1)) => (s.getD i 0, s.getD (S x i) 0))) := by
      intro l
      induction l with
      | nil => intro _; exact List.Forall₂.nil
      | cons x l ih =>
        intro hl
        rw [List.flatMap_cons, List.flatMap_cons]
        obtain ⟨⟨a1, a2, -⟩, ⟨c1, c2, c3⟩, -⟩ := h1 x (hl x (by simp))
        exact List.rel_append (splitter_lists s (S x) a1 (R x) c1 c2 c3) (ih fun y hy => hl y (by simp [hy]))
    exact this _ fun _ h => h

/-- the two ways to join the pairs {0, 2} and {1, 3}, and the six ways to join them if loops are allowed -/
example : rpmp [0, 1, 2, 3] = .ok [[(0, 3), (2, 1)], [(0, 1), (2, 3)]] := by decide

example : (rspm [0, 1, 2, 3]).map List.length = .ok 6 := by decide

/-! #### The sums -/

theorem lists_weight {K : Type} [Field K] {n : ℕ} (A : Matrix (Fin (2 * n)) (Fin (2 * n)) K) (hA : A.IsSymm) (junk : ℕ → ℕ → K)
    (σ : Perm (Fin (2 * n))) (hσ : ∀ i, σ (σ i) = i) (e : List (ℕ × ℕ)) (he : Lists (List.range (2 * n)) σ e) :
    (e.foldlM (fun (p : K) a => if a.1 < 2 * n ∧ a.2 < 2 * n then .ok (p * ofMatrix A junk a.1 a.2) else .error PyErr.indexError) 1 : Except PyErr K) =
      .ok ((∏ i : Fin (2 * n) with i < σ i, A i (σ i)) * ∏ i : Fin (2 * n) with σ i = i, A i i) := by
  obtain ⟨R, h1, h2, h3, rfl⟩ := he
  have hget : ∀ i : Fin (2 * n), (List.range (2 * n)).getD i 0 = i := fun i => by
    rw [List.getD_eq_getElem _ _ (by simp), List.getElem_range]
  simp only [hget]
  have hfold : ∀ (L : List (Fin (2 * n))) (p : K), ((L.map fun i : Fin (2 * n) => ((i : ℕ), ((σ i : Fin (2 * n)) : ℕ))).foldlM
      (fun (p : K) a => if a.1 < 2 * n ∧ a.2 < 2 * n then .ok (p * ofMatrix A junk a.1 a.2) else .error PyErr.indexError) p : Except PyErr K) =
      .ok (p * (L.map fun i => A i (σ i)).prod) := by
    intro L
    induction L with
    | nil => intro p; simp [pure, Except.pure]
    | cons x L ih =>
      intro p
      rw [List.map_cons, List.foldlM_cons, if_pos ⟨x.2, (σ x).2⟩]
      simp only [bind, Except.bind]
      rw [ih, List.map_cons, List.prod_cons, mul_assoc]
      congr 3
      unfold ofMatrix
      rw [dif_pos ⟨x.2, (σ x).2⟩]
  rw [hfold, one_mul]
  congr 1
  rw [← List.prod_toFinset _ h1, ← Finset.prod_filter_mul_prod_filter_not _ (fun i => σ i ≠ i)]
  congr 1
  · rw [prod_edges σ hσ (fun i j => A i j) (fun i j => (hA.apply i j).symm) (R.toFinset.filter fun i => σ i ≠ i)]
    · intro i hi
      rw [mem_filter, List.mem_toFinset] at hi
      refine ⟨hi.2, fun h => hi.2 (h3 i hi.1 ?_)⟩
      rw [mem_filter, List.mem_toFinset] at h
      exact h.1
    · intro i hi
      rcases h2 i with h | h
      · left; rw [mem_filter, List.mem_toFinset]; exact ⟨h, hi⟩
      · right; rw [mem_filter, List.mem_toFinset]; exact ⟨h, fun h' => hi (σ.injective h')⟩
  · refine Finset.prod_congr ?_ ?_
    · ext i
      rw [mem_filter, List.mem_toFinset, mem_filter]
      simp only [not_not, mem_univ, true_and]
      constructor
      · exact fun h => h.2
      · intro h
        refine ⟨?_, h⟩
        rcases h2 i with h' | h'
        · exact h'
        · rwa [h] at h'
    · intro i hi
      rw [mem_filter] at hi
      rw [hi.2]

theorem ref_sum {K : Type} [Field K] {n : ℕ} (A : Matrix (Fin (2 * n)) (Fin (2 * n)) K) (hA : A.IsSymm) (junk : ℕ → ℕ → K)
    (L : List (Perm (Fin (2 * n)))) (hL : ∀ σ ∈ L, ∀ i, σ (σ i) = i) (out : List (List (ℕ × ℕ)))
    (h : List.Forall₂ (Lists (List.range (2 * n))) L out) (z : K) :
    (out.foldlM (fun (netSum : K) (s : List (ℕ × ℕ)) => (do
      let netProd ← s.foldlM (fun (netProd : K) (a : ℕ × ℕ) =>
        if a.1 < 2 * n ∧ a.2 < 2 * n then Except.ok (netProd * ofMatrix A junk a.1 a.2) else Except.error PyErr.indexError) 1
      pure (netSum + netProd) : Except PyErr K)) z : Except PyErr K) =
      .ok (z + (L.map fun σ => (∏ i : Fin (2 * n) with i < σ i, A i (σ i)) * ∏ i : Fin (2 * n) with σ i = i, A i i).sum) := by
  induction h generalizing z with
  | nil => simp [pure, Except.pure]
  | cons h1 h2 ih =>
    rw [List.foldlM_cons, lists_weight A hA junk _ (hL _ (by simp)) _ h1]
    simp only [bind, Except.bind, pure, Except.pure]
    simp only [bind, Except.bind, pure, Except.pure] at ih
    rw [ih (fun σ hσ => hL σ (by simp [hσ])), List.map_cons, List.sum_cons, add_assoc]

/-- The reference montrealer of a symmetric matrix is the montrealer. -/
theorem reference_mtl {K : Type} [Field K] {n : ℕ} (hn : 0 < n) (A : Matrix (Fin (2 * n)) (Fin (2 * n)) K) (hA : A.IsSymm) (junk : ℕ → ℕ → K) :
    Reference.mtl (2 * n) (2 * n) (ofMatrix A junk) false = .ok (Spec.mtl A) := by
  classical
  obtain ⟨out, h1, L, h2, h3, h4⟩ := rpmp_enumerates n hn (List.range (2 * n)) List.nodup_range (by simp)
  unfold Reference.mtl
  simp only [Bool.false_eq_true, if_false]
  rw [h1]
  refine (ref_sum A hA junk L (fun σ hσ => ((h3 σ).mp hσ).1) out h4 0).trans ?_
  rw [zero_add, ← List.sum_toFinset _ h2]
  unfold Spec.mtl
  congr 1
  refine Finset.sum_congr ?_ ?_
  · ext σ; simp only [List.mem_toFinset, h3, mem_filter, mem_univ, true_and]
  · intro σ hσ
    have hσ := (mem_filter.mp hσ).2
    rw [Finset.filter_false_of_mem (s := univ) (p := fun i => σ i = i) (fun i _ => hσ.2.1 i), Finset.prod_empty, mul_one]

/-- The reference loop montrealer of a symmetric matrix is the loop montrealer with the diagonal entries for the loops. -/
theorem reference_lmtl {K : Type} [Field K] {n : ℕ} (hn : 0 < n) (A : Matrix (Fin (2 * n)) (Fin (2 * n)) K) (hA : A.IsSymm) (junk : ℕ → ℕ → K) :
    Reference.mtl (2 * n) (2 * n) (ofMatrix A junk) true = .ok (Spec.lmtl A fun i => A i i) := by
  classical
  obtain ⟨out, h1, L, h2, h3, h4⟩ := rspm_enumerates n hn (List.range (2 * n)) List.nodup_range (by simp)
  unfold Reference.mtl
  simp only [if_true]
  rw [h1]
  refine (ref_sum A hA junk L (fun σ hσ => ((h3 σ).mp hσ).1) out h4 0).trans ?_
  rw [zero_add, ← List.sum_toFinset _ h2]
  unfold Spec.lmtl
  congr 1
  refine Finset.sum_congr ?_ fun _ _ => rfl
  ext σ; simp only [List.mem_toFinset, h3, mem_filter, mem_univ, true_and]

/-- A symmetric matrix that meets the hypotheses, with montrealer `A03 A21 + A01 A23`. -/
example : Reference.mtl 4 4 (fun i j => ((i + j : ℕ) : ℚ)) false = .ok 14 ∧ (Matrix.of fun i j : Fin (2 * 2) => ((i + j : ℕ) : ℚ)).IsSymm := by
  constructor
  · have : rpmp (List.range 4) = .ok [[(0, 3), (2, 1)], [(0, 1), (2, 3)]] := by decide
    unfold Reference.mtl
    rw [this]
    simp [bind, Except.bind, pure, Except.pure]
    norm_num
  · refine Matrix.IsSymm.ext fun i j => ?_
    simp [add_comm]

/-- On an empty matrix the reference implementation raises. -/
theorem reference_mtl_empty {K : Type} [Field K] (A : ℕ → ℕ → K) (loop : Bool) : Reference.mtl 0 0 A loop = .error .valueError := by
  cases loop <;> rfl

/-- The fast montrealer and the reference montrealer agree on symmetric matrices of positive even dimension. -/
theorem mtl_eq_reference {n : ℕ} (hn : 0 < n) (A : Matrix (Fin (2 * n)) (Fin (2 * n)) ℂ) (hA : A.IsSymm) (junk : ℕ → ℕ → ℂ) :
    Mtl.mtl (.arr (2 * n) (2 * n) (ofMatrix A junk)) = Reference.mtl (2 * n) (2 * n) (ofMatrix A junk) false := by
  rw [mtl_correct hn A hA junk, reference_mtl hn A hA junk]

/-- The fast loop montrealer of `A` and `ζ` is the reference loop montrealer of `A` with its diagonal replaced by the conjugate of `ζ`, if the second
half of `ζ` is the conjugate of the first. -/
theorem lmtl_eq_reference {n : ℕ} (hn : 0 < n) (A : Matrix (Fin (2 * n)) (Fin (2 * n)) ℂ) (hA : A.IsSymm) (junk : ℕ → ℕ → ℂ) (zeta : ℕ → ℂ)
    (hz : ∀ i < n, zeta (n + i) = (starRingEnd ℂ) (zeta i)) :
    Mtl.lmtl (.arr (2 * n) (2 * n) (ofMatrix A junk)) (.arr (2 * n) zeta) =
      Reference.mtl (2 * n) (2 * n) (ofMatrix (Matrix.of fun i j => if i = j then (starRingEnd ℂ) (zeta i) else A i j) junk) true := by
  rw [lmtl_correct hn A hA junk zeta hz, reference_lmtl hn]
  · congr 1
    unfold Spec.lmtl
    refine Finset.sum_congr rfl fun σ _ => ?_
    congr 1
    · refine Finset.prod_congr rfl fun i hi => ?_
      rw [Matrix.of_apply, if_neg (mem_filter.mp hi).2.ne]
    · refine Finset.prod_congr rfl fun i _ => ?_
      simp only [Matrix.of_apply, if_true]
  · refine Matrix.IsSymm.ext fun i j => ?_
    rw [Matrix.of_apply, Matrix.of_apply]
    by_cases h : i = j
    · subst h; rfl
    · rw [if_neg h, if_neg (Ne.symm h), hA.apply]

end Verif.Props
