/-
Properties C17, C23, C24, C25, C57, C58: helpers of the hafnian module and `charpoly.py`.
-/
import Verif.Lemmas.HafFront
import Verif.Lemmas.Householder
import Mathlib.LinearAlgebra.Matrix.Notation
import Mathlib.RingTheory.PowerSeries.Exp
import Mathlib.Analysis.Complex.Basic
import Mathlib.Tactic.NormNum

set_option linter.unusedSectionVars false
set_option linter.unusedSimpArgs false

namespace Verif.Props
open Verif Verif.Model

/-! ### C57 -/

/-- **C57** -/
theorem nb_binom_correct (n k : ℕ) : nbBinom n k = n.choose k := nbBinom_eq n k

/-- **C57** the table, for every index inside it. -/
theorem precompute_binoms_correct (m n k : ℕ) (hn : n ≤ m) (hk : k ≤ m) : precomputeBinoms m n k = n.choose k := by
  rw [precomputeBinoms_eq, if_pos ⟨hn, hk⟩]

example : nbBinom 6 2 = 15 := rfl

/-! ### C23 -/

/-- end points of the edges, each edge `e` counted `edge_reps[e]` times; `x` lists first ends then second ends. -/
def pairEnds (x er : List ℕ) : List ℕ :=
  (List.range er.length).flatMap fun e =>
    List.replicate (er.getD e 0) (x.getD e 0) ++ List.replicate (er.getD e 0) (x.getD (er.length + e) 0)

/-- **C23** `matched_reps` always terminates without raising and pairs up the repeated multiset. -/
theorem matched_reps_correct (reps : List ℕ) :
    ∃ x er odd, matchedReps reps = .ok (x, er, odd) ∧ x.length = 2 * er.length ∧
      (pairEnds x er ++ odd.toList).Perm (Spec.repeatedIndices reps) ∧
      (∀ r ∈ er, 0 < r) ∧ (odd = none ↔ Even reps.sum) := by
  obtain ⟨edges, odd, h1, h2, h3⟩ := matchedReps_spec reps
  refine ⟨_, _, odd, h1, by simp; omega, ?_, ?_, ?_⟩
  · have : pairEnds (edges.map (·.1) ++ edges.map (·.2.1)) (edges.map (·.2.2)) = el edges := by
      unfold pairEnds el
      conv_rhs => rw [← map_finRange_get edges, List.flatMap_map]
      have hr : List.range (edges.map (·.2.2)).length = (List.finRange edges.length).map (fun i : Fin edges.length => (i : ℕ)) := by
        apply List.ext_getElem <;> simp
      rw [hr, List.flatMap_map]
      apply List.flatMap_congr
      intro e _
      have e1 : (edges.map (·.2.2)).getD (e : ℕ) 0 = edges[e].2.2 := by simp
      have e2 : (edges.map (·.1) ++ edges.map (·.2.1)).getD (e : ℕ) 0 = edges[e].1 := by
        simp [List.getD_eq_getElem?_getD, List.getElem?_append_left]
      have e3 : (edges.map (·.1) ++ edges.map (·.2.1)).getD ((edges.map (·.2.2)).length + e) 0 = edges[e].2.1 := by
        simp [List.getD_eq_getElem?_getD, List.getElem?_append_right]
      rw [e1, e2, e3]
    rw [this]; exact h2
  · intro r hr
    rw [List.mem_map] at hr
    obtain ⟨p, hp, rfl⟩ := hr
    exact h3 p hp
  · have hl := h2.length_eq
    rw [List.length_append, el_length, repeatedIndices_length] at hl
    rw [← hl]
    cases odd with
    | none => simp
    | some o => simp [Nat.even_add_one]

/-- e.g. `[1, 2]`: three vertices, one of them left over -/
example : (Spec.repeatedIndices [1, 2]).Perm ([0, 1] ++ (some 1).toList) := by decide

/-! ### C24 -/

/-- **C24** `find_kept_edges(·, reps)` is a bijection from `0 ≤ j < ∏(reps_i+1)` to the box `0 ≤ k_i ≤ reps_i`. -/
theorem find_kept_edges_bijective (reps : List ℕ) :
    Set.BijOn (fun j => findKeptEdges j reps) {j | j < (reps.map (· + 1)).prod}
      {k | List.Forall₂ (fun k r => k ≤ r) k reps} := by
  have hsize : ∀ rs : List ℕ, (rs.map (· + 1)).prod = boxSize rs := fun _ => rfl
  induction reps with
  | nil =>
    refine ⟨fun j _ => by simp [fke_nil], ?_, ?_⟩
    · intro a ha b hb _; simp at ha hb; omega
    · intro k hk; simp at hk; exact ⟨0, by simp, by simp [fke_nil, hk]⟩
  | cons r rs ih =>
    have hb := boxSize_pos rs
    have hsz : ((r :: rs).map (· + 1)).prod = (r + 1) * boxSize rs := by simp [boxSize]
    simp only [hsize] at ih
    have hmod : ∀ j, findKeptEdges j rs = findKeptEdges (j % boxSize rs) rs := by
      intro j
      conv_lhs => rw [← Nat.div_add_mod j (boxSize rs), mul_comm, fke_add]
    have hdiv : ∀ j < (r + 1) * boxSize rs, j / boxSize rs % (r + 1) = j / boxSize rs := by
      intro j hj; exact Nat.mod_eq_of_lt (Nat.div_lt_of_lt_mul (by rwa [mul_comm]))
    refine ⟨?_, ?_, ?_⟩
    · intro j hj
      simp only [Set.mem_ofPred_eq] at hj ⊢
      rw [fke_cons]
      refine List.Forall₂.cons (by have := Nat.mod_lt (j / boxSize rs) (show 0 < r + 1 by omega); omega) ?_
      rw [hmod]
      exact ih.1 (Nat.mod_lt j hb)
    · intro a ha b hbb hab
      simp only [Set.mem_ofPred_eq, hsz] at ha hbb
      simp only [fke_cons, List.cons.injEq] at hab
      rw [hdiv a ha, hdiv b hbb, hmod a, hmod b] at hab
      have := ih.2.1 (show a % boxSize rs ∈ {j | j < boxSize rs} from Nat.mod_lt a hb) (show b % boxSize rs ∈ _ from Nat.mod_lt b hb) hab.2
      rw [← Nat.div_add_mod a (boxSize rs), ← Nat.div_add_mod b (boxSize rs), hab.1, this]
    · intro k hk
      simp only [Set.mem_ofPred_eq] at hk
      cases hk with
      | cons h1 h2 =>
        rename_i k0 ks
        obtain ⟨j, hj, hjk⟩ := ih.2.2 h2
        have hj : j < boxSize rs := hj
        have hjk : findKeptEdges j rs = ks := hjk
        refine ⟨k0 * boxSize rs + j, ?_, ?_⟩
        · simp only [Set.mem_ofPred_eq, hsz]; nlinarith
        · show findKeptEdges _ _ = _
          rw [fke_cons, fke_add, hjk]
          congr 1
          rw [Nat.add_comm, Nat.add_mul_div_right _ _ hb, Nat.div_eq_of_lt hj, Nat.zero_add]
          exact Nat.mod_eq_of_lt (by omega)

example : (([2, 1] : List ℕ).map (· + 1)).prod = 6 ∧ findKeptEdges 5 [2, 1] = [2, 1] := ⟨rfl, rfl⟩

/-! ### C25 -/

section
variable {K : Type} [Field K]

/-- **C25** `reduction` of a matrix is the repeated matrix. -/
theorem reduction_matrix_correct (A : ℕ → ℕ → K) (rpt : List ℕ) :
    (reduction2 A rpt).1 = (Spec.repeatedIndices rpt).length ∧
    ∀ i j : Fin (Spec.repeatedIndices rpt).length, (reduction2 A rpt).2 i j = Spec.repeatedMatrix A rpt i j := by
  have : reductionRows rpt = Spec.repeatedIndices rpt := by
    rw [reductionRows, Spec.repeatedIndices, List.flatMap_def]
  refine ⟨by simp [reduction2, this], fun i j => ?_⟩
  simp [reduction2, this, Spec.repeatedMatrix]

/-- **C25** `reduction` of a vector. -/
theorem reduction_vector_correct (v : ℕ → K) (rpt : List ℕ) :
    (reduction1 v rpt).1 = (Spec.repeatedIndices rpt).length ∧
    ∀ i : Fin (Spec.repeatedIndices rpt).length, (reduction1 v rpt).2 i = v (Spec.repeatedIndices rpt)[i] := by
  have : reductionRows rpt = Spec.repeatedIndices rpt := by
    rw [reductionRows, Spec.repeatedIndices, List.flatMap_def]
  refine ⟨by simp [reduction1, this], fun i => ?_⟩
  simp [reduction1, this]

/-- the list of repeated indices really contains `i` exactly `rpt[i]` times, in increasing order -/
theorem repeatedIndices_count (rpt : List ℕ) (i : ℕ) : (Spec.repeatedIndices rpt).count i = rpt.getD i 0 := by
  rw [Spec.repeatedIndices, List.count_flatMap]
  have : ∀ m, ((List.range m).map (List.count i ∘ fun j => List.replicate (rpt.getD j 0) j)).sum = if i < m then rpt.getD i 0 else 0 := by
    intro m
    induction m with
    | zero => simp
    | succ m ih =>
      rw [List.range_succ, List.map_append, List.sum_append, ih]
      by_cases h : i = m
      · subst h; simp
      · have h' : m ≠ i := fun e => h e.symm
        by_cases h2 : i < m
        · simp [List.count_replicate, h', h2, show i < m + 1 by omega]
        · simp [List.count_replicate, h', h2, show ¬ i < m + 1 by omega]
  rw [this]
  by_cases h : i < rpt.length
  · rw [if_pos h]
  · rw [if_neg h, List.getD_eq_default _ _ (by omega)]

/-- **C25** the repeated indices are in increasing order. -/
theorem repeatedIndices_sorted (rpt : List ℕ) : (Spec.repeatedIndices rpt).Pairwise (· ≤ ·) := by
  rw [Spec.repeatedIndices, List.pairwise_flatMap]
  refine ⟨fun a _ => by simp [List.pairwise_replicate], ?_⟩
  refine List.Pairwise.imp ?_ (List.pairwise_lt_range (n := rpt.length))
  intro a b hab x hx y hy
  rw [List.mem_replicate] at hx hy
  omega

example : Spec.repeatedIndices [2, 0, 1] = [0, 0, 2] := rfl
end

/-! ### C17 -/

section
variable {K : Type} [RCLike K]
open Matrix

/-- **C17** `charpoly(H)` returns the coefficients of the characteristic polynomial, leading coefficient omitted, from
the highest power down. -/
theorem charpoly_correct {n : ℕ} (H : Matrix (Fin n) (Fin n) K) (junk : ℕ → ℕ → K) (t : ℕ) (ht : t < n) :
    Model.charpoly n (ofMatrix H junk) t = H.charpoly.coeff (n - 1 - t) := by
  rw [charpoly_eq n _ t ht]
  congr 2
  ext i j; simp [toMatrix, ofMatrix]

/-- **C17** `powertrace(H, n)` has at least `n` entries, and entry `k` is the trace of the `k`-th power. -/
theorem powertrace_correct {m : ℕ} (H : Matrix (Fin m) (Fin m) K) (junk : ℕ → ℕ → K) (n : ℕ) :
    n ≤ (powertraceList m (ofMatrix H junk) n).length ∧
      ∀ k < (powertraceList m (ofMatrix H junk) n).length, (powertraceList m (ofMatrix H junk) n).getD k 0 = (H ^ k).trace := by
  obtain ⟨a, b⟩ := powertraceList_spec m (ofMatrix H junk) n
  have : toMatrix m m (ofMatrix H junk) = H := by ext i j; simp [toMatrix, ofMatrix]
  rw [this] at a
  exact ⟨b, a⟩

/-- **C17** the Householder reduction returns an upper Hessenberg matrix with the same characteristic polynomial. -/
theorem reduce_to_hessenberg_correct {n : ℕ} (H : Matrix (Fin n) (Fin n) K) (junk : ℕ → ℕ → K) :
    (∀ i j : Fin n, (j : ℕ) + 1 < i → reduceToHessenberg n (ofMatrix H junk) i j = 0) ∧
      (toMatrix n n (reduceToHessenberg n (ofMatrix H junk))).charpoly = H.charpoly := by
  obtain ⟨a, b⟩ := reduceToHessenberg_spec n (ofMatrix H junk)
  have : toMatrix n n (ofMatrix H junk) = H := by ext i j; simp [toMatrix, ofMatrix]
  rw [this] at b
  exact ⟨fun i j h => a i i.2 j h, b⟩

example : (powertraceList 2 (ofMatrix (!![1, 2; 3, 4] : Matrix (Fin 2) (Fin 2) ℂ) fun _ _ => 0) 5).getD 4 0
    = ((!![1, 2; 3, 4] : Matrix (Fin 2) (Fin 2) ℂ) ^ 4).trace := by
  have h := powertrace_correct (!![1, 2; 3, 4] : Matrix (Fin 2) (Fin 2) ℂ) (fun _ _ => 0) 5
  exact h.2 4 (by omega)
end

/-! ### C58 -/

section
variable {K : Type} [RCLike K]
open PowerSeries Matrix

/-- Specification: the coefficient of `z^k` in `exp(S) = Σ_m S^m/m!` for a series without constant term (the terms
`m > k` do not contribute). -/
noncomputable def expCoeff (S : K⟦X⟧) (k : ℕ) : K := ∑ m ∈ Finset.range (k + 1), coeff k (S ^ m) / (m.factorial : K)

/-- Adding further terms of the exponential does not change the coefficient. -/
theorem expCoeff_stable (S : K⟦X⟧) (hS : constantCoeff S = 0) (k N : ℕ) (hN : k ≤ N) :
    ∑ m ∈ Finset.range (N + 1), coeff k (S ^ m) / (m.factorial : K) = expCoeff S k := by
  unfold expCoeff
  symm
  apply Finset.sum_subset (by intro x; simp; omega)
  intro m _ hm
  have hm : k < m := by simp at hm; omega
  obtain ⟨T, hT⟩ := X_dvd_iff.2 hS
  rw [hT, mul_pow, coeff_X_pow_mul', if_neg (by omega), zero_div]

theorem expCoeff_rec (S : K⟦X⟧) (hS : constantCoeff S = 0) (k : ℕ) :
    ((k : K) + 1) * expCoeff S (k + 1) = ∑ s ∈ Finset.range (k + 1), ((s : K) + 1) * coeff (s + 1) S * expCoeff S (k - s) := by
  have hd : derivative K (∑ m ∈ Finset.range (k + 2), PowerSeries.C ((m.factorial : K)⁻¹) * S ^ m)
      = derivative K S * ∑ m ∈ Finset.range (k + 1), PowerSeries.C ((m.factorial : K)⁻¹) * S ^ m := by
    rw [map_sum, Finset.sum_range_succ', Finset.mul_sum]
    have : derivative K (PowerSeries.C ((Nat.factorial 0 : K)⁻¹) * S ^ 0) = 0 := by simp
    rw [this, add_zero]
    apply Finset.sum_congr rfl
    intro m _
    rw [Derivation.leibniz, Derivation.leibniz_pow]
    have h0 : derivative K (PowerSeries.C (((m + 1).factorial : K)⁻¹)) = 0 := by simp
    rw [h0, smul_zero, add_zero]
    simp only [Nat.add_sub_cancel, smul_eq_mul, nsmul_eq_mul]
    have : PowerSeries.C (((m + 1).factorial : K)⁻¹) * ((m + 1 : ℕ) : K⟦X⟧) = PowerSeries.C ((m.factorial : K)⁻¹) := by
      rw [← map_natCast (PowerSeries.C (R := K)), ← map_mul]
      congr 1
      rw [Nat.factorial_succ]
      have h1 : ((m + 1 : ℕ) : K) ≠ 0 := by exact_mod_cast Nat.succ_ne_zero m
      have h2 : (m.factorial : K) ≠ 0 := by exact_mod_cast Nat.factorial_ne_zero m
      push_cast at h1 ⊢
      field_simp
    linear_combination (S ^ m * derivative K S) * this
  have hc := congrArg (coeff k) hd
  rw [coeff_derivative, coeff_mul, Finset.Nat.sum_antidiagonal_eq_sum_range_succ
    (fun x y => coeff x (derivative K S) * coeff y (∑ m ∈ Finset.range (k + 1), PowerSeries.C ((m.factorial : K)⁻¹) * S ^ m))] at hc
  have e : ∀ N j, j ≤ N → coeff j (∑ m ∈ Finset.range (N + 1), PowerSeries.C ((m.factorial : K)⁻¹) * S ^ m) = expCoeff S j := by
    intro N j hj
    rw [← expCoeff_stable S hS j N hj, map_sum]
    apply Finset.sum_congr rfl
    intro m _
    rw [coeff_C_mul, div_eq_mul_inv, mul_comm]
  rw [e (k + 1) (k + 1) le_rfl] at hc
  rw [mul_comm, hc]
  apply Finset.sum_congr rfl
  intro s hs
  have hs : s < k + 1 := by simpa using hs
  rw [e k (k - s) (by omega), coeff_derivative]; ring

theorem expProd_eq_expCoeff (a : ℕ → K) (M k : ℕ) (hk : k ≤ M) :
    coeff k (expProd a M) = expCoeff (PowerSeries.mk fun i => if i = 0 then 0 else a i) k := by
  refine recurrence_unique a (fun k => coeff k (expProd a M)) _ M ?_ (fun k hk => expProd_recurrence a M k hk) ?_ k hk
  · simp [expProd_coeff_zero, expCoeff]
  · intro k _
    rw [expCoeff_rec _ (by simp [← coeff_zero_eq_constantCoeff_apply])]
    apply Finset.sum_congr rfl
    intro s _
    simp

/-- **C58** `f(A, n)[k]` is the coefficient of `z^k` in `exp(Σ_{i≥1} tr(A^i) z^i/(2i))` for every `k ≤ n/2`. -/
theorem f_correct {m : ℕ} (A : Matrix (Fin m) (Fin m) K) (junk : ℕ → ℕ → K) (n k : ℕ) (hk : k ≤ n / 2) :
    f powertrace m (ofMatrix A junk) n k
      = expCoeff (PowerSeries.mk fun i => if i = 0 then 0 else (A ^ i).trace / ((2 * i : ℕ) : K)) k := by
  rw [f_eq powertrace_PTSpec m _ n k hk, expProd_eq_expCoeff _ _ _ hk]
  have : toMatrix m m (ofMatrix A junk) = A := by ext i j; simp [toMatrix, ofMatrix]
  rw [this]

/-- **C58** `f_loop`: with the loop term `xᵀ A^(i-1) d / 2`. -/
theorem f_loop_correct {m : ℕ} (A : Matrix (Fin m) (Fin m) K) (junk : ℕ → ℕ → K) (x d : ℕ → K) (n k : ℕ) (hk : k ≤ n / 2) :
    fLoop powertrace m (ofMatrix A junk) (ofMatrix A junk) x d n k
      = expCoeff (PowerSeries.mk fun i => if i = 0 then 0 else (A ^ i).trace / ((2 * i : ℕ) : K)
          + ((fun i : Fin m => x i) ⬝ᵥ (A ^ (i - 1) *ᵥ fun i : Fin m => d i)) / 2) k := by
  rw [fLoop_eq powertrace_PTSpec m _ x d n k hk, expProd_eq_expCoeff _ _ _ hk]
  have : toMatrix m m (ofMatrix A junk) = A := by ext i j; simp [toMatrix, ofMatrix]
  rw [this]

/-- **C58** `f_loop_odd`: powers of `z` twice as fine, with the odd vertex's loop and its links. -/
theorem f_loop_odd_correct {m : ℕ} (A : Matrix (Fin m) (Fin m) K) (junk : ℕ → ℕ → K) (x d v : ℕ → K) (o : K) (n k : ℕ) (hk : k ≤ n) :
    fLoopOdd powertrace m (ofMatrix A junk) (ofMatrix A junk) x d n o v k
      = expCoeff (PowerSeries.mk fun i => if i = 0 then 0 else if i = 1 then o
          else if i % 2 = 0 then (A ^ (i / 2)).trace / (i : K)
            + ((fun i : Fin m => x i) ⬝ᵥ (A ^ (i / 2 - 1) *ᵥ fun i : Fin m => d i)) / 2
          else (fun i : Fin m => v i) ⬝ᵥ (A ^ (i / 2 - 1) *ᵥ fun i : Fin m => d i)) k := by
  rw [fLoopOdd_eq powertrace_PTSpec m _ x d n k o v hk, expProd_eq_expCoeff _ _ _ hk]
  have : toMatrix m m (ofMatrix A junk) = A := by ext i j; simp [toMatrix, ofMatrix]
  simp only [oddFac, this]

/-- e.g. the coefficient of `z` in `exp(t z + …)` is `t` -/
example (t : ℂ) : expCoeff (PowerSeries.mk fun i => if i = 0 then 0 else t) 1 = t := by
  simp [expCoeff, Finset.sum_range_succ]
end

end Verif.Props
