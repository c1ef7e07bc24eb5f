/- Invariants of the loops of fock_gradients.py. -/
import Verif.Model.FockGradients
import Verif.Lemmas.FockAmp

set_option linter.unusedSectionVars false
set_option linter.unusedSimpArgs false

namespace Verif.Lemmas
open Verif Verif.Model Verif.Model.FG Verif.Spec

theorem sqA_eq (n : ℕ) : sqA n = root n := rfl

theorem ix_sub {c m k : ℕ} (h : k ≤ m) : ix c ((m : ℤ) - k) = m - k := by
  unfold ix; rw [if_neg (by omega)]; omega

theorem ix_pred {c m : ℕ} (h : 0 < m) : ix c ((m : ℤ) - 1) = m - 1 := by
  have := ix_sub (c := c) (m := m) (k := 1) h; simpa using this

theorem ix_pred2 {c m : ℕ} (h : 2 ≤ m) : ix c ((m : ℤ) - 2) = m - 2 := by
  have := ix_sub (c := c) (m := m) (k := 2) h; simpa using this

theorem ix_lt {c m : ℕ} (h : m < c) : ix c ((m : ℤ) - 1) < c := by
  unfold ix; split_ifs <;> omega

theorem forRange_map {σ τ : Type} (f : σ → τ) (n : ℕ) (s : σ) (body : ℕ → σ → σ) (body' : ℕ → τ → τ) (h : ∀ i s, f (body i s) = body' i (f s)) :
    f (forRange n s body) = forRange n (f s) body' := by
  induction n with
  | zero => rfl
  | succ n ih => rw [forRange_succ, forRange_succ, h, ih]

theorem forRange2_map {σ τ : Type} (f : σ → τ) (a n : ℕ) (s : σ) (body : ℕ → σ → σ) (body' : ℕ → τ → τ) (h : ∀ i s, f (body i s) = body' i (f s)) :
    f (forRange2 a n s body) = forRange2 a n (f s) body' := by
  rw [forRange2_eq, forRange2_eq]
  exact forRange_map f _ _ _ _ fun i s => h _ s

/-- A two-dimensional array filled row by row from the second column on. -/
theorem fill2 (c : ℕ) (hc : 1 ≤ c) (al : ℕ → ℕ → Prop) [∀ m n, Decidable (al m n)] (F : ℕ → ℕ → Arr2 → ℂ) (A Zs : Arr2)
    (body : ℕ → ℕ → Arr2 → Arr2) (hb : ∀ m n A, body m n A = if al m n then upd2 A m n (F m n A) else A)
    (h0 : ∀ m < c, ∀ n < c, (n = 0 ∨ ¬ al m n) → A m n = Zs m n)
    (hF : ∀ m < c, ∀ n < c, 1 ≤ n → al m n → ∀ B : Arr2,
      (∀ m' < c, ∀ n' < c, (n' = 0 ∨ ¬ al m' n' ∨ m' < m ∨ (m' = m ∧ n' < n)) → B m' n' = Zs m' n') → F m n B = Zs m n) :
    ∀ m < c, ∀ n < c, (forRange c A fun m A => forRange2 1 c A fun n A => body m n A) m n = Zs m n := by
  have key := forRange_inv (fun m (B : Arr2) => ∀ m' < c, ∀ n' < c, (n' = 0 ∨ ¬ al m' n' ∨ m' < m) → B m' n' = Zs m' n') c A
    (fun m A => forRange2 1 c A fun n A => body m n A)
    (fun m' hm' n' hn' h => h0 m' hm' n' hn' (by rcases h with h | h | h; exacts [.inl h, .inr h, absurd h (Nat.not_lt_zero _)]))
    (fun m B hm hB => by
      have k2 := forRange2_inv (fun n (B : Arr2) => ∀ m' < c, ∀ n' < c, (n' = 0 ∨ ¬ al m' n' ∨ m' < m ∨ (m' = m ∧ n' < n)) → B m' n' = Zs m' n') hc B
        (body m)
        (fun m' hm' n' hn' h => hB m' hm' n' hn' (by rcases h with h | h | h | h; exacts [.inl h, .inr (.inl h), .inr (.inr h), .inl (by omega)]))
        (fun n B h1 hn hB m' hm' n' hn' h => by
          rw [hb]
          split_ifs with hal
          · unfold upd2
            split_ifs with e
            · obtain ⟨rfl, rfl⟩ := e
              exact hF m' hm n' hn h1 hal B hB
            · refine hB m' hm' n' hn' ?_
              rcases h with h | h | h | h
              · exact .inl h
              · exact .inr (.inl h)
              · exact .inr (.inr (.inl h))
              · exact .inr (.inr (.inr ⟨h.1, by have : n' ≠ n := fun e' => e ⟨h.1, e'⟩; omega⟩))
          · by_cases e : m' = m ∧ n' = n
            · obtain ⟨rfl, rfl⟩ := e
              exact hB _ hm' _ hn' (.inr (.inl hal))
            · refine hB m' hm' n' hn' ?_
              rcases h with h | h | h | h
              · exact .inl h
              · exact .inr (.inl h)
              · exact .inr (.inr (.inl h))
              · exact .inr (.inr (.inr ⟨h.1, by have : n' ≠ n := fun e' => e ⟨h.1, e'⟩; omega⟩)))
      intro m' hm' n' hn' h
      refine k2 m' hm' n' hn' ?_
      rcases h with h | h | h
      · exact .inl h
      · exact .inr (.inl h)
      · exact .inr (.inr (by omega)))
  intro m hm n hn
  exact key m hm n hn (.inr (.inr hm))

/-- A two-dimensional array all of whose entries are assigned. -/
theorem assign2 (c : ℕ) (F : Arr2) (A : Arr2) :
    ∀ m < c, ∀ n < c, (forRange c A fun m A => forRange c A fun n A => upd2 A m n (F m n)) m n = F m n := by
  have key := forRange_inv (fun m (B : Arr2) => ∀ m' < m, ∀ n' < c, B m' n' = F m' n') c A (fun m A => forRange c A fun n A => upd2 A m n (F m n))
    (fun m' h => absurd h (Nat.not_lt_zero _))
    (fun m B hm hB => by
      have k2 := forRange_inv (fun n (B : Arr2) => ∀ m' < m + 1, ∀ n' < c, (m' = m → n' < n) → B m' n' = F m' n') c B (fun n A => upd2 A m n (F m n))
        (fun m' h n' hn' h' => hB m' (by rcases Nat.lt_succ_iff_lt_or_eq.mp h with h | h; exacts [h, absurd (h' h) (Nat.not_lt_zero _)]) n' hn')
        (fun n B hn hB m' hm' n' hn' h => by
          unfold upd2
          split_ifs with e
          · rw [e.1, e.2]
          · refine hB m' hm' n' hn' fun e' => ?_
            have := h e'
            have : n' ≠ n := fun e'' => e ⟨e', e''⟩
            omega)
      exact fun m' hm' n' hn' => k2 m' hm' n' hn' fun _ => hn')
  exact fun m hm n hn => key m hm n hn

/-- nested loops -/
theorem forRange3_inv {σ : Type} (c : ℕ) (P : ℕ → ℕ → ℕ → σ → Prop) (s : σ) (body : ℕ → ℕ → ℕ → σ → σ) (h0 : P 0 0 0 s)
    (h : ∀ m n p s, m < c → n < c → p < c → P m n p s → P m n (p + 1) (body m n p s)) (h2 : ∀ m n s, P m n c s → P m (n + 1) 0 s)
    (h1 : ∀ m s, P m c 0 s → P (m + 1) 0 0 s) :
    P c 0 0 (forRange c s fun m s => forRange c s fun n s => forRange c s fun p s => body m n p s) :=
  forRange_inv (fun m s => P m 0 0 s) c s _ h0 fun m s hm hs =>
    h1 m _ (forRange_inv (fun n s => P m n 0 s) c s _ hs fun n s hn hs =>
      h2 m n _ (forRange_inv (fun p s => P m n p s) c s _ hs fun p s hp hs => h m n p s hm hn hp hs))

/-- lexicographic order of triples -/
def Before (m' n' p' m n p : ℕ) : Prop := m' < m ∨ (m' = m ∧ (n' < n ∨ (n' = n ∧ p' < p)))

theorem lex_step {m' n' p' m n p : ℕ} (h : Before m' n' p' m n (p + 1)) : Before m' n' p' m n p ∨ (m' = m ∧ n' = n ∧ p' = p) := by
  unfold Before at *; omega

/-- The last index is determined by the other three. -/
theorem fill4 (c : ℕ) (q : ℕ → ℕ → ℕ → ℤ) (F : ℕ → ℕ → ℕ → Arr4 → ℂ) (A Zs : Arr4)
    (h0 : ∀ m < c, ∀ n < c, ∀ p < c, ∀ x < c, (x = 0 ∨ (x : ℤ) ≠ q m n p) → A m n p x = Zs m n p x)
    (hF : ∀ m < c, ∀ n < c, ∀ p < c, ∀ x < c, 0 < x → q m n p = (x : ℕ) → ∀ B : Arr4,
      (∀ m' < c, ∀ n' < c, ∀ p' < c, ∀ x' < c, (x' = 0 ∨ (x' : ℤ) ≠ q m' n' p' ∨ Before m' n' p' m n p) → B m' n' p' x' = Zs m' n' p' x') →
      F m n p B = Zs m n p x) :
    ∀ m < c, ∀ n < c, ∀ p < c, ∀ x < c, (forRange c A fun m A => forRange c A fun n A => forRange c A fun p A =>
      if 0 < q m n p ∧ q m n p < c then upd4 A m n p (q m n p).toNat (F m n p A) else A) m n p x = Zs m n p x := by
  have key := forRange3_inv c (fun m n p (B : Arr4) => ∀ m' < c, ∀ n' < c, ∀ p' < c, ∀ x' < c,
      (x' = 0 ∨ (x' : ℤ) ≠ q m' n' p' ∨ Before m' n' p' m n p) → B m' n' p' x' = Zs m' n' p' x') A
    (fun m n p A => if 0 < q m n p ∧ q m n p < c then upd4 A m n p (q m n p).toNat (F m n p A) else A)
    (fun m' hm n' hn p' hp x' hx h => h0 m' hm n' hn p' hp x' hx (by
      rcases h with h | h | h
      · exact .inl h
      · exact .inr h
      · unfold Before at h; omega))
    (fun m n p B hm hn hp hB m' hm' n' hn' p' hp' x' hx' h => by
      by_cases hx0 : x' = 0
      · split_ifs with hq
        · unfold upd4
          rw [if_neg (by omega)]
          exact hB m' hm' n' hn' p' hp' x' hx' (.inl hx0)
        · exact hB m' hm' n' hn' p' hp' x' hx' (.inl hx0)
      by_cases hxq : (x' : ℤ) = q m' n' p'
      · by_cases e : m' = m ∧ n' = n ∧ p' = p
        · obtain ⟨rfl, rfl, rfl⟩ := e
          rw [if_pos (by omega)]
          unfold upd4
          rw [if_pos (by refine ⟨rfl, rfl, rfl, ?_⟩; omega)]
          exact hF _ hm _ hn _ hp x' hx' (by omega) hxq.symm B hB
        · have hl : Before m' n' p' m n p := by
            rcases h with h | h | h
            · exact absurd h hx0
            · exact absurd hxq h
            · rcases lex_step h with h | h
              · exact h
              · exact absurd h e
          split_ifs with hq
          · unfold upd4
            rw [if_neg (by rintro ⟨a, b, d, _⟩; exact e ⟨a, b, d⟩)]
            exact hB m' hm' n' hn' p' hp' x' hx' (.inr (.inr hl))
          · exact hB m' hm' n' hn' p' hp' x' hx' (.inr (.inr hl))
      · split_ifs with hq
        · unfold upd4
          rw [if_neg (by rintro ⟨rfl, rfl, rfl, hh⟩; omega)]
          exact hB m' hm' n' hn' p' hp' x' hx' (.inr (.inl hxq))
        · exact hB m' hm' n' hn' p' hp' x' hx' (.inr (.inl hxq)))
    (fun m n B hB m' hm' n' hn' p' hp' x' hx' h => hB m' hm' n' hn' p' hp' x' hx' (by
      rcases h with h | h | h
      · exact .inl h
      · exact .inr (.inl h)
      · right; right; unfold Before at *; omega))
    (fun m B hB m' hm' n' hn' p' hp' x' hx' h => hB m' hm' n' hn' p' hp' x' hx' (by
      rcases h with h | h | h
      · exact .inl h
      · exact .inr (.inl h)
      · right; right; unfold Before at *; omega))
  exact fun m hm n hn p hp x hx => key m hm n hn p hp x hx (.inr (.inr (.inl hm)))

/-- A four-dimensional array all of whose entries are assigned. -/
theorem assign4 (c : ℕ) (F : Arr4) (A : Arr4) :
    ∀ m < c, ∀ n < c, ∀ p < c, ∀ x < c, (forRange c A fun m A => forRange c A fun n A => forRange c A fun p A => forRange c A fun q A =>
      upd4 A m n p q (F m n p q)) m n p x = F m n p x := by
  have key := forRange3_inv c (fun m n p (B : Arr4) => ∀ m' < c, ∀ n' < c, ∀ p' < c, ∀ x' < c, Before m' n' p' m n p → B m' n' p' x' = F m' n' p' x') A
    (fun m n p A => forRange c A fun q A => upd4 A m n p q (F m n p q))
    (fun m' hm n' hn p' hp x' hx h => by unfold Before at h; omega)
    (fun m n p B hm hn hp hB => by
      have k2 := forRange_inv (fun q (B : Arr4) => ∀ m' < c, ∀ n' < c, ∀ p' < c, ∀ x' < c,
          (Before m' n' p' m n p ∨ (m' = m ∧ n' = n ∧ p' = p ∧ x' < q)) → B m' n' p' x' = F m' n' p' x') c B (fun q A => upd4 A m n p q (F m n p q))
        (fun m' hm n' hn p' hp x' hx h => hB m' hm n' hn p' hp x' hx (by rcases h with h | h; exacts [h, by omega]))
        (fun q B hq hB m' hm' n' hn' p' hp' x' hx' h => by
          unfold upd4
          split_ifs with e
          · rw [e.1, e.2.1, e.2.2.1, e.2.2.2]
          · refine hB m' hm' n' hn' p' hp' x' hx' ?_
            rcases h with h | h
            · exact .inl h
            · right; omega)
      intro m' hm' n' hn' p' hp' x' hx' h
      refine k2 m' hm' n' hn' p' hp' x' hx' ?_
      rcases lex_step h with h | h
      · exact .inl h
      · exact .inr ⟨h.1, h.2.1, h.2.2, hx'⟩)
    (fun m n B hB m' hm' n' hn' p' hp' x' hx' h => hB m' hm' n' hn' p' hp' x' hx' (by unfold Before at *; omega))
    (fun m B hB m' hm' n' hn' p' hp' x' hx' h => hB m' hm' n' hn' p' hp' x' hx' (by unfold Before at *; omega))
  exact fun m hm n hn p hp x hx => key m hm n hn p hp x hx (.inl hm)

/-- The layer in which the last index is zero. -/
theorem fill3 (c : ℕ) (b : ℕ → ℕ) (hb : ∀ m < c, b m ≤ c) (pf : ℕ → ℕ → ℕ) (F : ℕ → ℕ → Arr4 → ℂ) (A Zs : Arr4)
    (h0 : ∀ m < c, ∀ n < c, ∀ p < c, (p = 0 ∨ p ≠ pf m n ∨ b m ≤ n) → A m n p 0 = Zs m n p 0)
    (h1 : ∀ m n p x, x ≠ 0 → A m n p x = 0)
    (hF : ∀ m < c, ∀ n < b m, pf m n < c → 0 < pf m n → ∀ B : Arr4,
      (∀ m' < c, ∀ n' < c, ∀ p' < c, (p' = 0 ∨ p' ≠ pf m' n' ∨ b m' ≤ n' ∨ m' < m ∨ (m' = m ∧ n' < n)) → B m' n' p' 0 = Zs m' n' p' 0) →
      F m n B = Zs m n (pf m n) 0) :
    (∀ m < c, ∀ n < c, ∀ p < c, (forRange c A fun m A => forRange (b m) A fun n A =>
      if 0 < pf m n ∧ pf m n < c then upd4 A m n (pf m n) 0 (F m n A) else A) m n p 0 = Zs m n p 0) ∧
    (∀ m n p x, x ≠ 0 → (forRange c A fun m A => forRange (b m) A fun n A =>
      if 0 < pf m n ∧ pf m n < c then upd4 A m n (pf m n) 0 (F m n A) else A) m n p x = 0) := by
  have key := forRange_inv (fun m (B : Arr4) => (∀ m' < c, ∀ n' < c, ∀ p' < c, (p' = 0 ∨ p' ≠ pf m' n' ∨ b m' ≤ n' ∨ m' < m) → B m' n' p' 0 = Zs m' n' p' 0) ∧
      (∀ m n p x, x ≠ 0 → B m n p x = 0)) c A
    (fun m A => forRange (b m) A fun n A => if 0 < pf m n ∧ pf m n < c then upd4 A m n (pf m n) 0 (F m n A) else A)
    ⟨fun m' hm n' hn p' hp h => h0 m' hm n' hn p' hp (by omega), h1⟩
    (fun m B hm hB => by
      have k2 := forRange_inv (fun n (B : Arr4) => (∀ m' < c, ∀ n' < c, ∀ p' < c,
          (p' = 0 ∨ p' ≠ pf m' n' ∨ b m' ≤ n' ∨ m' < m ∨ (m' = m ∧ n' < n)) → B m' n' p' 0 = Zs m' n' p' 0) ∧ (∀ m n p x, x ≠ 0 → B m n p x = 0)) (b m) B
        (fun n A => if 0 < pf m n ∧ pf m n < c then upd4 A m n (pf m n) 0 (F m n A) else A)
        ⟨fun m' hm n' hn p' hp h => hB.1 m' hm n' hn p' hp (by omega), hB.2⟩
        (fun n B hn hB => by
          have hbm := hb m hm
          refine ⟨fun m' hm' n' hn' p' hp' h => ?_, fun m' n' p' x' hx' => ?_⟩
          · split_ifs with hq
            · unfold upd4
              split_ifs with e
              · obtain ⟨rfl, rfl, rfl, _⟩ := e
                exact hF _ hm _ hn hq.2 hq.1 B hB.1
              · exact hB.1 m' hm' n' hn' p' hp' (by
                  by_cases e1 : m' = m ∧ n' = n
                  · right; left
                    obtain ⟨rfl, rfl⟩ := e1
                    exact fun e2 => e ⟨rfl, rfl, e2, rfl⟩
                  · omega)
            · exact hB.1 m' hm' n' hn' p' hp' (by
                by_cases e1 : m' = m ∧ n' = n
                · obtain ⟨rfl, rfl⟩ := e1
                  omega
                · omega)
          · split_ifs with hq
            · unfold upd4
              rw [if_neg (by omega)]; exact hB.2 _ _ _ _ hx'
            · exact hB.2 _ _ _ _ hx')
      exact ⟨fun m' hm' n' hn' p' hp' h => k2.1 m' hm' n' hn' p' hp' (by
        by_cases e : m' = m
        · subst e; omega
        · omega), k2.2⟩)
  exact ⟨fun m hm n hn p hp => key.1 m hm n hn p hp (by omega), key.2⟩

end Verif.Lemmas
