/- `f_loop_odd`: the coefficient equals `E[x_o Qⁿ]/n!` up to terms of lower degree in the weights. -/
import Verif.Lemmas.GenFun
import Verif.Lemmas.FiniteDiff
import Mathlib.Tactic.Positivity

set_option linter.unusedSectionVars false
set_option linter.unusedSimpArgs false

namespace Verif
open Model Matrix Finset

section poly
variable {ε : Type*} [Fintype ε] [DecidableEq ε] {K : Type*} [Field K] [CharZero K]

/-- Polynomial function of total degree `< d`. -/
def PolyLt (d : ℕ) (F : (ε → K) → K) : Prop := (∀ w, F w = 0) ∨ (0 < d ∧ PolyDeg (d - 1) F)

theorem PolyLt.zero (d : ℕ) : PolyLt (ε := ε) (K := K) d (fun _ => 0) := Or.inl fun _ => rfl

theorem PolyLt.congr {d : ℕ} {F G : (ε → K) → K} (h : PolyLt d F) (e : ∀ w, F w = G w) : PolyLt d G := by
  have : F = G := funext e
  rwa [← this]

theorem PolyDeg.congr {d : ℕ} {F G : (ε → K) → K} (h : PolyDeg d F) (e : ∀ w, F w = G w) : PolyDeg d G := by
  have : F = G := funext e
  rwa [← this]

theorem PolyLt.add {d : ℕ} {F G : (ε → K) → K} (hF : PolyLt d F) (hG : PolyLt d G) : PolyLt d (fun w => F w + G w) := by
  rcases hF with hF | ⟨h0, hF⟩
  · simpa [hF] using hG
  · rcases hG with hG | ⟨_, hG⟩
    · right; refine ⟨h0, hF.congr fun w => by rw [hG, add_zero]⟩
    · exact Or.inr ⟨h0, hF.add hG⟩

theorem PolyLt.of_deg {d d' : ℕ} {F : (ε → K) → K} (h : PolyDeg d F) (hd : d < d') : PolyLt d' F :=
  Or.inr ⟨by omega, h.mono (by omega)⟩

theorem PolyLt.deg {d : ℕ} {F : (ε → K) → K} (h : PolyLt d F) : PolyDeg d F := by
  rcases h with h | ⟨_, h⟩
  · exact ((PolyDeg.const (0 : K)).mono (Nat.zero_le d)).congr fun w => (h w).symm
  · exact h.mono (by omega)

theorem PolyLt.mul_deg {d d' d'' : ℕ} {F G : (ε → K) → K} (hF : PolyDeg d F) (hG : PolyLt d' G) (hd : d + d' ≤ d'') :
    PolyLt d'' (fun w => F w * G w) := by
  rcases hG with hG | ⟨h0, hG⟩
  · left; intro w; simp only [hG, mul_zero]
  · exact PolyLt.of_deg (hF.mul hG) (by omega)

theorem PolyLt.const_mul {d : ℕ} {F : (ε → K) → K} (c : K) (hF : PolyLt d F) : PolyLt d (fun w => c * F w) :=
  PolyLt.mul_deg (PolyDeg.const c) hF (by omega)

theorem PolyLt.sum {ι : Type*} (s : Finset ι) {d : ℕ} {F : ι → (ε → K) → K} (hF : ∀ i ∈ s, PolyLt d (F i)) :
    PolyLt d (fun w => ∑ i ∈ s, F i w) := by
  classical
  induction s using Finset.induction_on with
  | empty => simpa using PolyLt.zero (ε := ε) (K := K) d
  | insert a s ha ih =>
    simp only [Finset.sum_insert ha]
    exact (hF a (by simp)).add (ih fun i hi => hF i (by simp [hi]))

theorem fdSum_polyLt {r : ε → ℕ} {α : K} {β : ε → K} {F : (ε → K) → K} {d : ℕ} (hF : PolyLt d F) (hd : d ≤ ∑ e, r e) :
    fdSum r α β F = 0 := by
  rcases hF with hF | ⟨h0, hF⟩
  · simp [fdSum, hF]
  · exact fdSum_polyDeg hF (by omega)

end poly

section mats
variable {K : Type} [Field K] [CharZero K] {E : ℕ}

theorem WW_poly (a b : Vtx E) : PolyDeg 1 (fun w : Fin E → K => WW w a b) := by
  have h0 : PolyDeg (ε := Fin E) 1 (fun _ => (0 : K)) := (PolyDeg.const (0 : K)).mono (Nat.zero_le 1)
  rcases a with _ | (a | a) <;> rcases b with _ | (b | b) <;> simp only [WW] <;> first | exact h0 | skip
  · split
    · exact PolyDeg.var a
    · exact h0
  · split
    · exact PolyDeg.var a
    · exact h0

variable (A : Matrix (Vtx E) (Vtx E) K) (D : Vtx E → K)

theorem AW_poly (a b : Vtx E) : PolyDeg 1 (fun w : Fin E → K => (A * WW w) a b) := by
  simp only [mul_apply]
  exact PolyDeg.sum _ fun c _ => (WW_poly c b).const_mul _

theorem AWpow_poly (j : ℕ) (a b : Vtx E) : PolyDeg j (fun w : Fin E → K => ((A * WW w) ^ j) a b) := by
  induction j generalizing b with
  | zero => simpa using PolyDeg.const (ε := Fin E) ((1 : Matrix (Vtx E) (Vtx E) K) a b)
  | succ j ih =>
    simp only [pow_succ (A * WW _), mul_apply (N := A * WW _)]
    exact PolyDeg.sum _ fun c _ => (ih c).mul (AW_poly A c b)

theorem AWpowD_poly (j : ℕ) (a : Vtx E) : PolyDeg j (fun w : Fin E → K => ((A * WW w) ^ j *ᵥ D) a) := by
  simp only [mulVec, dotProduct]
  exact PolyDeg.sum _ fun c _ => ((AWpow_poly A j a c).mul (PolyDeg.const (D c))).mono le_rfl

theorem trace_poly (j : ℕ) : PolyDeg j (fun w : Fin E → K => ((A * WW w) ^ j).trace) := by
  simp only [trace, diag_apply]
  exact PolyDeg.sum _ fun c _ => AWpow_poly A j c c

theorem dotterm_poly (j : ℕ) : PolyDeg (j + 1) (fun w : Fin E → K => (WW w *ᵥ D) ⬝ᵥ ((A * WW w) ^ j *ᵥ D)) := by
  simp only [dotProduct]
  refine PolyDeg.sum _ fun c _ => ?_
  have h1 : PolyDeg 1 (fun w : Fin E → K => (WW w *ᵥ D) c) := by
    simp only [mulVec, dotProduct]
    exact PolyDeg.sum _ fun d _ => ((WW_poly c d).mul (PolyDeg.const (D d))).mono le_rfl
  exact (h1.mul (AWpowD_poly A D j c)).mono (by omega)

/-- Even exponents of the generating function (index `s+1`). -/
def evFac (w : Fin E → K) (s : ℕ) : K :=
  ((A * WW w) ^ (s + 1)).trace / ((2 * (s + 1) : ℕ) : K) + ((WW w *ᵥ D) ⬝ᵥ ((A * WW w) ^ s *ᵥ D)) / 2

/-- Odd exponents. -/
def odFac (w : Fin E → K) (j : ℕ) : K := ((A * WW w) ^ j *ᵥ D) none

theorem evFac_poly (s : ℕ) : PolyDeg (s + 1) (fun w => evFac A D w s) := by
  have h1 := (trace_poly A (s + 1)).const_mul ((2 * (s + 1) : ℕ) : K)⁻¹
  have h2 := (dotterm_poly A D s).const_mul (2 : K)⁻¹
  refine (h1.add h2).congr fun w => ?_
  simp only [evFac, div_eq_inv_mul]

theorem odFac_poly (j : ℕ) : PolyDeg j (fun w => odFac A D w j) := AWpowD_poly A D j none

variable {A} in
theorem cW_rec' (hs : ∀ a b, A a b = A b a) (w : Fin E → K) (n : ℕ) :
    ((n : K) + 1) * cW D A (QQ w) (n + 1) = ∑ s ∈ range (n + 1), ((s : K) + 1) * evFac A D w s * cW D A (QQ w) (n - s) := by
  rw [cW_recurrence hs (WW_symm _) (QQ_isQuad _)]
  refine Finset.sum_congr rfl fun s _ => ?_
  rw [evFac]
  have h1 : ((s : K) + 1) ≠ 0 := by exact_mod_cast Nat.succ_ne_zero s
  push_cast
  field_simp

variable {A} in
theorem cW_poly (hs : ∀ a b, A a b = A b a) (n : ℕ) : PolyDeg n (fun w : Fin E → K => cW D A (QQ w) n) := by
  induction n using Nat.strong_induction_on with
  | _ n ih =>
    rcases n with _ | n
    · exact (PolyDeg.const (1 : K)).congr fun w => (cW_zero).symm
    · have h1 : ((n : K) + 1) ≠ 0 := by exact_mod_cast Nat.succ_ne_zero n
      have : PolyDeg (n + 1) (fun w : Fin E → K => ((n : K) + 1)⁻¹ *
          ∑ s ∈ range (n + 1), ((s : K) + 1) * evFac A D w s * cW D A (QQ w) (n - s)) := by
        refine PolyDeg.const_mul _ (PolyDeg.sum _ fun s hs => ?_)
        have hs' : s < n + 1 := by simpa using hs
        refine (((evFac_poly A D s).const_mul ((s : K) + 1)).mul (ih (n - s) (by omega))).mono (by omega)
      refine this.congr fun w => ?_
      rw [← cW_rec' D hs, ← mul_assoc, inv_mul_cancel₀ h1, one_mul]

/-- All factors. -/
def allFac (w : Fin E → K) (i : ℕ) : K := if i % 2 = 0 then evFac A D w (i / 2 - 1) else odFac A D w (i / 2)

/-- Coefficients of the generating function as functions of the weights. -/
noncomputable def oddE (N : ℕ) (w : Fin E → K) (k : ℕ) : K := PowerSeries.coeff k (expProd (allFac A D w) N)

theorem sum_parity_even {M : Type*} [AddCommMonoid M] (F : ℕ → M) (n : ℕ) :
    ∑ s ∈ range (2 * n + 2), F s = ∑ j ∈ range (n + 1), F (2 * j) + ∑ j ∈ range (n + 1), F (2 * j + 1) := by
  induction n with
  | zero => simp [Finset.sum_range_succ]
  | succ n ih =>
    rw [show 2 * (n + 1) + 2 = (2 * n + 2) + 1 + 1 by ring, Finset.sum_range_succ, Finset.sum_range_succ, ih,
      Finset.sum_range_succ _ (n + 1), Finset.sum_range_succ (fun j => F (2 * j + 1)) (n + 1),
      show 2 * (n + 1) = 2 * n + 2 by ring]
    generalize F (2 * n + 2 + 1) = x
    ac_rfl

theorem sum_parity_odd {M : Type*} [AddCommMonoid M] (F : ℕ → M) (n : ℕ) :
    ∑ s ∈ range (2 * n + 1), F s = ∑ j ∈ range (n + 1), F (2 * j) + ∑ j ∈ range n, F (2 * j + 1) := by
  rcases n with _ | n
  · simp
  · rw [show 2 * (n + 1) + 1 = (2 * n + 2) + 1 by ring, Finset.sum_range_succ, sum_parity_even,
      Finset.sum_range_succ _ (n + 1), show 2 * (n + 1) = 2 * n + 2 by ring]
    ac_rfl

variable {A} in
/-- The main induction: even coefficients are `c_n` and odd ones `g_n = Σ q_j c_{n-j}`, up to lower degree. -/
theorem oddE_main (hs : ∀ a b, A a b = A b a) (N k : ℕ) (hk : k ≤ N) :
    PolyLt (k / 2) (fun w => oddE A D N w k -
      if k % 2 = 0 then cW D A (QQ w) (k / 2) else ∑ j ∈ range (k / 2 + 1), odFac A D w j * cW D A (QQ w) (k / 2 - j)) := by
  -- degree facts
  have hg : ∀ n, PolyDeg n (fun w => ∑ j ∈ range (n + 1), odFac A D w j * cW D A (QQ w) (n - j)) := fun n =>
    PolyDeg.sum _ fun j hj => by
      have : j < n + 1 := by simpa using hj
      exact ((odFac_poly A D j).mul (cW_poly D hs (n - j))).mono (by omega)
  induction k using Nat.strong_induction_on with
  | _ k ih =>
  have hdeg : ∀ k' < k, PolyDeg (k' / 2) (fun w => oddE A D N w k') := by
    intro k' hk'
    by_cases hp : k' % 2 = 0
    · have h := (ih k' hk' (by omega)).deg.add (cW_poly D hs (k' / 2))
      refine h.congr fun w => ?_
      simp only [hp, if_true]; ring
    · have h := (ih k' hk' (by omega)).deg.add (hg (k' / 2))
      refine h.congr fun w => ?_
      simp only [hp, if_false]; ring
  rcases k with _ | k
  · left; intro w; simp [oddE, expProd_coeff_zero, cW_zero]
  · have hk1 : ((k : K) + 1) ≠ 0 := by exact_mod_cast Nat.succ_ne_zero k
    have hrec : ∀ w, ((k : K) + 1) * oddE A D N w (k + 1)
        = ∑ s ∈ range (k + 1), ((s : K) + 1) * allFac A D w (s + 1) * oddE A D N w (k - s) :=
      fun w => expProd_recurrence (allFac A D w) N k (by omega)
    -- reduce to the scaled statement
    suffices H : PolyLt ((k + 1) / 2) (fun w => ∑ s ∈ range (k + 1), ((s : K) + 1) * allFac A D w (s + 1) * oddE A D N w (k - s)
        - ((k : K) + 1) * if (k + 1) % 2 = 0 then cW D A (QQ w) ((k + 1) / 2)
            else ∑ j ∈ range ((k + 1) / 2 + 1), odFac A D w j * cW D A (QQ w) ((k + 1) / 2 - j)) by
      refine (H.const_mul (((k : K) + 1)⁻¹)).congr fun w => ?_
      rw [← hrec, ← mul_sub, ← mul_assoc, inv_mul_cancel₀ hk1, one_mul]
    rcases Nat.even_or_odd' k with ⟨n, rfl | rfl⟩
    · -- k + 1 = 2n+1
      have e1 : (2 * n + 1) % 2 = 1 := by omega
      have e2 : (2 * n + 1) / 2 = n := by omega
      simp only [e1, e2, one_ne_zero, if_false]
      have lo : PolyLt n (fun w =>
          (∑ j ∈ range (n + 1), (((2 * j : ℕ) : K) + 1) * (odFac A D w j * (oddE A D N w (2 * (n - j)) - cW D A (QQ w) (n - j))))
          + ∑ j ∈ range n, (((2 * j + 1 : ℕ) : K) + 1) * (evFac A D w j * (oddE A D N w (2 * (n - 1 - j) + 1)
              - ∑ i ∈ range (n - 1 - j + 1), odFac A D w i * cW D A (QQ w) (n - 1 - j - i)))) := by
        refine PolyLt.add (PolyLt.sum _ fun j hj => PolyLt.const_mul _ ?_) (PolyLt.sum _ fun j hj => PolyLt.const_mul _ ?_)
        · have hj : j < n + 1 := by simpa using hj
          by_cases h0 : j = 0
          · subst h0
            have := ih (2 * n) (by omega) (by omega)
            simp only [Nat.mul_mod_right, if_true, Nat.mul_div_cancel_left n (by norm_num : 0 < 2)] at this
            exact PolyLt.mul_deg (odFac_poly A D 0) (by simpa using this) (by omega)
          · have := ih (2 * (n - j)) (by omega) (by omega)
            simp only [Nat.mul_mod_right, if_true, Nat.mul_div_cancel_left (n - j) (by norm_num : 0 < 2)] at this
            exact PolyLt.mul_deg (odFac_poly A D j) this (by omega)
        · have hj : j < n := by simpa using hj
          have := ih (2 * (n - 1 - j) + 1) (by omega) (by omega)
          have f1 : (2 * (n - 1 - j) + 1) % 2 = 1 := by omega
          have f2 : (2 * (n - 1 - j) + 1) / 2 = n - 1 - j := by omega
          simp only [f1, f2, one_ne_zero, if_false] at this
          exact PolyLt.mul_deg (evFac_poly A D j) this (by omega)
      refine lo.congr fun w => ?_
      rw [sum_parity_odd]
      -- main terms
      have hmain : ((2 * n : ℕ) : K) * (∑ j ∈ range (n + 1), odFac A D w j * cW D A (QQ w) (n - j))
          + ∑ j ∈ range (n + 1), odFac A D w j * cW D A (QQ w) (n - j)
          = (∑ j ∈ range (n + 1), (((2 * j : ℕ) : K) + 1) * (odFac A D w j * cW D A (QQ w) (n - j)))
          + ∑ j ∈ range n, (((2 * j + 1 : ℕ) : K) + 1) * (evFac A D w j *
              ∑ i ∈ range (n - 1 - j + 1), odFac A D w i * cW D A (QQ w) (n - 1 - j - i)) := by
        have hc : ∀ j ∈ range (n + 1), odFac A D w j * (((n - j : ℕ) : K) * cW D A (QQ w) (n - j))
            = odFac A D w j * ∑ s ∈ range (n - j), ((s : K) + 1) * evFac A D w s * cW D A (QQ w) (n - j - 1 - s) := by
          intro j hj
          have hj : j < n + 1 := by simpa using hj
          congr 1
          rcases Nat.eq_zero_or_pos (n - j) with h0 | h0
          · simp [h0]
          · obtain ⟨p, hp⟩ : ∃ p, n - j = p + 1 := ⟨n - j - 1, by omega⟩
            rw [hp, Nat.add_sub_cancel]
            have := cW_rec' D hs w p
            push_cast; exact this
        have hswap : ∑ j ∈ range n, (((2 * j + 1 : ℕ) : K) + 1) * (evFac A D w j *
              ∑ i ∈ range (n - 1 - j + 1), odFac A D w i * cW D A (QQ w) (n - 1 - j - i))
            = 2 * ∑ j ∈ range (n + 1), odFac A D w j * (((n - j : ℕ) : K) * cW D A (QQ w) (n - j)) := by
          rw [Finset.sum_congr rfl hc]
          have hl : ∀ j ∈ range n, (((2 * j + 1 : ℕ) : K) + 1) * (evFac A D w j *
              ∑ i ∈ range (n - 1 - j + 1), odFac A D w i * cW D A (QQ w) (n - 1 - j - i))
              = ∑ i ∈ range (n + 1), if i + j < n then 2 * (odFac A D w i * (((j : K) + 1) * evFac A D w j * cW D A (QQ w) (n - i - 1 - j))) else 0 := by
            intro j hj
            have hj : j < n := by simpa using hj
            rw [← Finset.sum_filter, Finset.mul_sum, Finset.mul_sum]
            have : (range (n + 1)).filter (fun i => i + j < n) = range (n - 1 - j + 1) := by
              ext i; simp; omega
            rw [this]
            refine Finset.sum_congr rfl fun i _ => ?_
            rw [show n - 1 - j - i = n - i - 1 - j by omega]
            push_cast; ring
          have hr : ∀ i ∈ range (n + 1), odFac A D w i * ∑ s ∈ range (n - i), ((s : K) + 1) * evFac A D w s * cW D A (QQ w) (n - i - 1 - s)
              = ∑ j ∈ range n, if i + j < n then (odFac A D w i * (((j : K) + 1) * evFac A D w j * cW D A (QQ w) (n - i - 1 - j))) else 0 := by
            intro i _
            rw [← Finset.sum_filter, Finset.mul_sum]
            have : (range n).filter (fun j => i + j < n) = range (n - i) := by
              ext j; simp; omega
            rw [this]
          rw [Finset.sum_congr rfl hl, Finset.sum_congr rfl hr, Finset.sum_comm, Finset.mul_sum]
          refine Finset.sum_congr rfl fun i _ => ?_
          rw [Finset.mul_sum]
          refine Finset.sum_congr rfl fun j _ => ?_
          split <;> simp
        rw [hswap, Finset.mul_sum, Finset.mul_sum, ← Finset.sum_add_distrib, ← Finset.sum_add_distrib]
        refine Finset.sum_congr rfl fun j hj => ?_
        have hj : j ≤ n := by have : j < n + 1 := by simpa using hj
                              omega
        rw [Nat.cast_sub hj]
        push_cast; ring
      have hA1 : ∀ j ∈ range (n + 1), (((2 * j : ℕ) : K) + 1) * allFac A D w (2 * j + 1) * oddE A D N w (2 * n - 2 * j)
          = (((2 * j : ℕ) : K) + 1) * (odFac A D w j * oddE A D N w (2 * (n - j))) := by
        intro j _
        have g1 : (2 * j + 1) % 2 = 1 := by omega
        have g2 : (2 * j + 1) / 2 = j := by omega
        rw [allFac, g1, g2, if_neg one_ne_zero, show 2 * n - 2 * j = 2 * (n - j) by omega]; ring
      have hA2 : ∀ j ∈ range n, (((2 * j + 1 : ℕ) : K) + 1) * allFac A D w (2 * j + 1 + 1) * oddE A D N w (2 * n - (2 * j + 1))
          = (((2 * j + 1 : ℕ) : K) + 1) * (evFac A D w j * oddE A D N w (2 * (n - 1 - j) + 1)) := by
        intro j hj
        have hj : j < n := by simpa using hj
        have g1 : (2 * j + 1 + 1) % 2 = 0 := by omega
        have g2 : (2 * j + 1 + 1) / 2 - 1 = j := by omega
        rw [allFac, g1, g2, if_pos rfl, show 2 * n - (2 * j + 1) = 2 * (n - 1 - j) + 1 by omega]; ring
      rw [Finset.sum_congr rfl hA1, Finset.sum_congr rfl hA2]
      have : ((2 * n : ℕ) : K) * (∑ j ∈ range (n + 1), odFac A D w j * cW D A (QQ w) (n - j))
          + ∑ j ∈ range (n + 1), odFac A D w j * cW D A (QQ w) (n - j)
          = (((2 * n : ℕ) : K) + 1) * (∑ j ∈ range (n + 1), odFac A D w j * cW D A (QQ w) (n - j)) := by ring
      rw [← this, hmain]
      simp only [mul_sub, Finset.sum_sub_distrib]
      ring
    · -- k + 1 = 2n+2
      have e1 : (2 * n + 1 + 1) % 2 = 0 := by omega
      have e2 : (2 * n + 1 + 1) / 2 = n + 1 := by omega
      simp only [e1, e2, if_true]
      have lo : PolyLt (n + 1) (fun w =>
          (∑ j ∈ range (n + 1), (((2 * j : ℕ) : K) + 1) * (odFac A D w j * oddE A D N w (2 * (n - j) + 1)))
          + ∑ j ∈ range (n + 1), (((2 * j + 1 : ℕ) : K) + 1) * (evFac A D w j * (oddE A D N w (2 * (n - j)) - cW D A (QQ w) (n - j)))) := by
        refine PolyLt.add (PolyLt.sum _ fun j hj => PolyLt.const_mul _ ?_) (PolyLt.sum _ fun j hj => PolyLt.const_mul _ ?_)
        · have hj : j < n + 1 := by simpa using hj
          have := hdeg (2 * (n - j) + 1) (by omega)
          rw [show (2 * (n - j) + 1) / 2 = n - j by omega] at this
          exact PolyLt.of_deg ((odFac_poly A D j).mul this) (by omega)
        · have hj : j < n + 1 := by simpa using hj
          have := ih (2 * (n - j)) (by omega) (by omega)
          simp only [Nat.mul_mod_right, if_true, Nat.mul_div_cancel_left (n - j) (by norm_num : 0 < 2)] at this
          exact PolyLt.mul_deg (evFac_poly A D j) this (by omega)
      refine lo.congr fun w => ?_
      rw [show 2 * n + 1 + 1 = 2 * n + 2 by ring, sum_parity_even]
      have hA1 : ∀ j ∈ range (n + 1), (((2 * j : ℕ) : K) + 1) * allFac A D w (2 * j + 1) * oddE A D N w (2 * n + 1 - 2 * j)
          = (((2 * j : ℕ) : K) + 1) * (odFac A D w j * oddE A D N w (2 * (n - j) + 1)) := by
        intro j hj
        have hj : j < n + 1 := by simpa using hj
        have g1 : (2 * j + 1) % 2 = 1 := by omega
        have g2 : (2 * j + 1) / 2 = j := by omega
        rw [allFac, g1, g2, if_neg one_ne_zero, show 2 * n + 1 - 2 * j = 2 * (n - j) + 1 by omega]; ring
      have hA2 : ∀ j ∈ range (n + 1), (((2 * j + 1 : ℕ) : K) + 1) * allFac A D w (2 * j + 1 + 1) * oddE A D N w (2 * n + 1 - (2 * j + 1))
          = (((2 * j + 1 : ℕ) : K) + 1) * (evFac A D w j * oddE A D N w (2 * (n - j))) := by
        intro j hj
        have hj : j < n + 1 := by simpa using hj
        have g1 : (2 * j + 1 + 1) % 2 = 0 := by omega
        have g2 : (2 * j + 1 + 1) / 2 - 1 = j := by omega
        rw [allFac, g1, g2, if_pos rfl, show 2 * n + 1 - (2 * j + 1) = 2 * (n - j) by omega]; ring
      rw [Finset.sum_congr rfl hA1, Finset.sum_congr rfl hA2]
      have hmain : (((2 * n + 1 : ℕ) : K) + 1) * cW D A (QQ w) (n + 1)
          = ∑ j ∈ range (n + 1), (((2 * j + 1 : ℕ) : K) + 1) * (evFac A D w j * cW D A (QQ w) (n - j)) := by
        have h := cW_rec' D hs w n
        have : (((2 * n + 1 : ℕ) : K) + 1) * cW D A (QQ w) (n + 1) = 2 * (((n : K) + 1) * cW D A (QQ w) (n + 1)) := by
          push_cast; ring
        rw [this, h, Finset.mul_sum]
        refine Finset.sum_congr rfl fun j _ => ?_
        push_cast; ring
      rw [hmain]
      simp only [mul_sub, Finset.sum_sub_distrib]
      ring

variable {A} in
/-- Odd coefficient against `E[x_o Qⁿ]/n!`. -/
theorem oddE_gW (hs : ∀ a b, A a b = A b a) (n : ℕ) :
    PolyLt n (fun w => oddE A D (2 * n + 1) w (2 * n + 1) - gW D A (QQ w) n none) := by
  have := oddE_main D hs (2 * n + 1) (2 * n + 1) le_rfl
  have e1 : (2 * n + 1) % 2 = 1 := by omega
  have e2 : (2 * n + 1) / 2 = n := by omega
  simp only [e1, e2, one_ne_zero, if_false] at this
  refine this.congr fun w => ?_
  rw [gW_sum hs (QQ_isQuad w)]
  congr 1
  rw [Finset.sum_apply]
  refine Finset.sum_congr rfl fun j _ => ?_
  simp [odFac, mul_comm]

end mats

section master
variable {K : Type} [Field K] [CharZero K]

variable (kept : List ℤ) (A : ℕ → ℕ → K) (D oddV : ℕ → K) (oddloop : K) (A' : Matrix (Vtx kept.length) (Vtx kept.length) K)
  (D' : Vtx kept.length → K) (hA : ∀ a b, A' (some a) (some b) = A (pos a) (pos b))
  (hD : ∀ a, D' (some a) = D (pos a)) (hD0 : D' none = oddloop) (hV : ∀ a, A' none (some a) = oddV (pos a))

include hA hD hD0 hV in
theorem fLoopOdd_master {pt : PowerTrace K} (hpt : PTSpec pt) (n k : ℕ) (hk : k ≤ n) :
    fLoopOdd pt (nonzeroRows kept).length (getAXS kept A) (getAXS kept A) (getXDS kept D) (getDS kept D) n oddloop
      (getXDS kept oddV) k = oddE A' D' n (wt K kept) k := by
  rw [fLoopOdd_eq hpt _ _ _ _ _ _ _ _ hk, oddE]
  congr 1
  unfold expProd
  refine Finset.prod_congr rfl fun t _ => ?_
  congr 1
  generalize hi : t + 1 = i
  have hi1 : 1 ≤ i := by omega
  have hcolV : ∀ b, b ∉ Set.range (vtxOf kept) → (A' * WW (wt K kept)) none b = 0 := fun b hb => AW_zero_col kept A' none b hb
  have hoV : (fun i : Fin (nonzeroRows kept).length => getXDS kept oddV i)
      = (fun b => (A' * WW (wt K kept)) none b) ∘ vtxOf kept := by
    rw [getXDS_eq kept oddV (fun v => A' none v) hV]
    congr 1
    funext b
    rw [WW_mulVec_apply, mul_WW_apply]
    rcases b with _ | (b | b) <;> simp [mul_comm]
  simp only [oddFac, allFac]
  by_cases h1 : i = 1
  · subst h1; simp [odFac, hD0]
  · rw [if_neg h1]
    by_cases h2 : i % 2 = 0
    · rw [if_pos h2, if_pos h2, evFac]
      have e : i / 2 - 1 + 1 = i / 2 := by omega
      rw [compress_trace (vtxOf kept) (vtxOf_injective kept) _ (AW_zero_col kept A'),
        compress_dot (vtxOf kept) (vtxOf_injective kept) _ _ (Wv_zero kept D'),
        compress_mulVec (vtxOf kept) (vtxOf_injective kept) _ (AW_zero_col kept A'),
        ← getAXS_eq kept A A' hA, ← getXDS_eq kept D D' hD, ← getDS_eq kept D D' hD, e,
        show 2 * (i / 2) = i by omega]
    · rw [if_neg h2, if_neg h2, odFac]
      obtain ⟨j, hj⟩ : ∃ j, i / 2 = j + 1 := ⟨i / 2 - 1, by omega⟩
      rw [hj, Nat.add_sub_cancel, pow_succ', ← mulVec_mulVec]
      have : ((A' * WW (wt K kept)) *ᵥ ((A' * WW (wt K kept)) ^ j *ᵥ D')) none
          = (fun b => (A' * WW (wt K kept)) none b) ⬝ᵥ ((A' * WW (wt K kept)) ^ j *ᵥ D') := rfl
      rw [this, compress_dot (vtxOf kept) (vtxOf_injective kept) _ _ hcolV,
        compress_mulVec (vtxOf kept) (vtxOf_injective kept) _ (AW_zero_col kept A'),
        ← getAXS_eq kept A A' hA, ← hoV, ← getDS_eq kept D D' hD]

end master
end Verif
