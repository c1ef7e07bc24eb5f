/-
C58: `f_loop` and `f_loop_odd` with two different matrices.
-/
import Verif.Props.HafnianHelpers

set_option linter.unusedSectionVars false
set_option linter.style.longLine false

namespace Verif.Props
open Matrix Verif Verif.Model

noncomputable section

variable {K : Type} [RCLike K]

/-- `f_loop` is the truncated exponential of power traces plus loop terms. -/
theorem fLoop_eq_two {pt : PowerTrace K} (hpt : PTSpec pt) (m : ℕ) (AX AS : ℕ → ℕ → K) (XD DS : ℕ → K) (n k : ℕ) (hk : k ≤ n / 2) :
    fLoop pt m AX AS XD DS n k = PowerSeries.coeff k (expProd (fun i =>
      ((toMatrix m m AX) ^ i).trace / ((2 * i : ℕ) : K)
        + ((fun i : Fin m => XD i) ⬝ᵥ ((toMatrix m m AS) ^ (i - 1) *ᵥ (fun i : Fin m => DS i))) / 2) (n / 2)) := by
  let stAt : ℕ → (ℕ → K) := fun i => (fun v => vecMat m v AS)^[i - 1] XD
  have hst : ∀ i, (fun j : Fin m => stAt (i + 1) j) = (fun j : Fin m => XD j) ᵥ* (toMatrix m m AS) ^ i := by
    intro i
    simp only [stAt, Nat.add_sub_cancel]
    induction i with
    | zero => simp
    | succ i ih => rw [Function.iterate_succ_apply', vecMat_eq, ih, vecMul_vecMul, pow_succ]
  have := comb_loop (fun i =>
      ((toMatrix m m AX) ^ i).trace / ((2 * i : ℕ) : K)
        + ((fun i : Fin m => XD i) ⬝ᵥ ((toMatrix m m AS) ^ (i - 1) *ᵥ (fun i : Fin m => DS i))) / 2) (n / 2) (n / 2)
    (fun i => n / (2 * i)) (fun i _ _ => by rw [Nat.div_div_eq_div_mul]) XD
    (fun _ s => vecMat m s AS) (fun i st => pt m AX (n / 2 + 1) i / ((2 * i : ℕ) : K) + dot m st DS / 2) stAt rfl
    (fun i h _ => by
      obtain ⟨i, rfl⟩ : ∃ i', i = i' + 1 := ⟨i - 1, by omega⟩
      simp only [stAt, Nat.add_sub_cancel]
      rw [Function.iterate_succ_apply'])
    (fun i h1 h2 => by
      obtain ⟨i, rfl⟩ : ∃ i', i = i' + 1 := ⟨i - 1, by omega⟩
      rw [hpt _ _ _ _ h1 (by omega), dot_eq, hst, Nat.add_sub_cancel, dotProduct_mulVec]) k hk
  rw [← this]
  rfl

/-- Factors of `f_loop_odd`. -/
def oddFacTwo (m : ℕ) (AX AS : ℕ → ℕ → K) (XD DS : ℕ → K) (oddloop : K) (oddVX : ℕ → K) (i : ℕ) : K :=
  if i = 1 then oddloop
  else if i % 2 = 0 then ((toMatrix m m AX) ^ (i / 2)).trace / (i : K)
        + ((fun i : Fin m => XD i) ⬝ᵥ ((toMatrix m m AS) ^ (i / 2 - 1) *ᵥ (fun i : Fin m => DS i))) / 2
  else (fun i : Fin m => oddVX i) ⬝ᵥ ((toMatrix m m AS) ^ (i / 2 - 1) *ᵥ (fun i : Fin m => DS i))

theorem fLoopOdd_eq_two {pt : PowerTrace K} (hpt : PTSpec pt) (m : ℕ) (AX AS : ℕ → ℕ → K) (XD DS : ℕ → K) (n k : ℕ)
    (oddloop : K) (oddVX : ℕ → K) (hk : k ≤ n) :
    fLoopOdd pt m AX AS XD DS n oddloop oddVX k = PowerSeries.coeff k (expProd (oddFacTwo m AX AS XD DS oddloop oddVX) n) := by
  let stAt : ℕ → (ℕ → K) := fun i => (fun v => matVec m AS v)^[(i - 2) / 2] DS
  have hst : ∀ i, (fun j : Fin m => stAt i j) = (toMatrix m m AS) ^ ((i - 2) / 2) *ᵥ (fun j : Fin m => DS j) := by
    intro i
    simp only [stAt]
    induction (i - 2) / 2 with
    | zero => simp
    | succ i ih => rw [Function.iterate_succ_apply', matVec_eq, ih, mulVec_mulVec, pow_succ']
  have := comb_loop (oddFacTwo m AX AS XD DS oddloop oddVX) n n
    (fun i => n / i) (fun i _ _ => le_rfl) DS
    (fun i s => if i = 1 then s else if i % 2 = 0 then s else matVec m AS s)
    (fun i st => if i = 1 then oddloop
      else if i % 2 = 0 then pt m AX (n / 2 + 1) (i / 2) / (i : K) + dot m XD st / 2
      else dot m oddVX st) stAt rfl
    (fun i h _ => by
      simp only [stAt]
      by_cases h1 : i = 1
      · subst h1; rfl
      · rw [if_neg h1]
        by_cases h2 : i % 2 = 0
        · rw [if_pos h2]
          have : (i + 1 - 2) / 2 = (i - 2) / 2 := by omega
          rw [this]
        · rw [if_neg h2]
          have : (i + 1 - 2) / 2 = (i - 2) / 2 + 1 := by omega
          rw [this, Function.iterate_succ_apply'])
    (fun i h1 h2 => by
      simp only [oddFacTwo]
      by_cases h1 : i = 1
      · rw [if_pos h1, if_pos h1]
      · rw [if_neg h1, if_neg h1]
        have e : (i - 2) / 2 = i / 2 - 1 := by omega
        by_cases h2 : i % 2 = 0
        · rw [if_pos h2, if_pos h2, hpt _ _ _ _ (by omega) (by omega), dot_eq, hst, e]
        · rw [if_neg h2, if_neg h2, dot_eq, hst, e]) k hk
  rw [← this]
  simp only [fLoopOdd]
  have e : (fun i (st : Comb K × (ℕ → K)) =>
      let fd : K × (ℕ → K) :=
        if i = 1 then (oddloop, st.2)
        else if i % 2 = 0 then (pt m AX (n / 2 + 1) (i / 2) / (i : K) + dot m XD st.2 / 2, st.2)
        else (dot m oddVX st.2, matVec m AS st.2)
      (combStep n (n / i) i fd.1 st.1, fd.2)) = fun i st => (combStep n (n / i) i (if i = 1 then oddloop
      else if i % 2 = 0 then pt m AX (n / 2 + 1) (i / 2) / (i : K) + dot m XD st.2 / 2
      else dot m oddVX st.2) st.1, if i = 1 then st.2 else if i % 2 = 0 then st.2 else matVec m AS st.2) := by
    funext i st
    by_cases h1 : i = 1
    · simp [h1]
    · by_cases h2 : i % 2 = 0 <;> simp [h1, h2]
  simp only [e]

/-- **C58** `f_loop(AX, AX_S, XD_S, D_S, n)`: the power traces are those of `AX`, the loop term is `XD_S AX_S^(i-1) D_S / 2`. -/
theorem f_loop_general {m : ℕ} (A B : Matrix (Fin m) (Fin m) K) (junk junk' : ℕ → ℕ → K) (x d : ℕ → K) (n k : ℕ) (hk : k ≤ n / 2) :
    fLoop powertrace m (ofMatrix A junk) (ofMatrix B junk') x d n k
      = expCoeff (PowerSeries.mk fun i => if i = 0 then 0 else (A ^ i).trace / ((2 * i : ℕ) : K)
          + ((fun i : Fin m => x i) ⬝ᵥ (B ^ (i - 1) *ᵥ fun i : Fin m => d i)) / 2) k := by
  rw [fLoop_eq_two powertrace_PTSpec m _ _ x d n k hk, expProd_eq_expCoeff _ _ _ hk]
  have : ∀ (A : Matrix (Fin m) (Fin m) K) junk, toMatrix m m (ofMatrix A junk) = A := fun A junk => by ext i j; simp [toMatrix, ofMatrix]
  rw [this, this]

/-- **C58** `f_loop_odd(AX, AX_S, XD_S, D_S, n, oddloop, oddVX_S)`. -/
theorem f_loop_odd_general {m : ℕ} (A B : Matrix (Fin m) (Fin m) K) (junk junk' : ℕ → ℕ → K) (x d v : ℕ → K) (o : K) (n k : ℕ) (hk : k ≤ n) :
    fLoopOdd powertrace m (ofMatrix A junk) (ofMatrix B junk') x d n o v k
      = expCoeff (PowerSeries.mk fun i => if i = 0 then 0 else if i = 1 then o
          else if i % 2 = 0 then (A ^ (i / 2)).trace / (i : K)
            + ((fun i : Fin m => x i) ⬝ᵥ (B ^ (i / 2 - 1) *ᵥ fun i : Fin m => d i)) / 2
          else (fun i : Fin m => v i) ⬝ᵥ (B ^ (i / 2 - 1) *ᵥ fun i : Fin m => d i)) k := by
  rw [fLoopOdd_eq_two powertrace_PTSpec m _ _ x d n k o v hk, expProd_eq_expCoeff _ _ _ hk]
  have : ∀ (A : Matrix (Fin m) (Fin m) K) junk, toMatrix m m (ofMatrix A junk) = A := fun A junk => by ext i j; simp [toMatrix, ofMatrix]
  simp only [oddFacTwo, this]

/-- non-vacuous: the coefficient of `z` for a single vertex with two different weights -/
example : fLoop powertrace 1 (ofMatrix (!![3] : Matrix (Fin 1) (Fin 1) ℂ) fun _ _ => 0) (ofMatrix (!![5] : Matrix (Fin 1) (Fin 1) ℂ) fun _ _ => 0) (fun _ => 1) (fun _ => 7) 2 1 = 5 := by
  rw [f_loop_general _ _ _ _ _ _ _ _ (by norm_num)]
  simp [expCoeff, Finset.sum_range_succ, dotProduct]
  norm_num

end

end Verif.Props
