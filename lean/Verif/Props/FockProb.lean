/-
Properties C43 and C44: `fock_prob`, `fock_threshold_prob`, `brs`, `ubrs`.
Output patterns are functions `Fin M → ℕ`; `Finset.piAntidiag univ N` is the set of those with total `N`.
-/
import Verif.Lemmas.Brs
import Verif.Props.Permanent
import Verif.Props.Hafnian
import Mathlib.Analysis.Matrix.Order

set_option linter.unusedSectionVars false
set_option linter.unusedSimpArgs false

namespace Verif.Props
open Verif Verif.Model Finset Matrix
open scoped ComplexOrder MatrixOrder

variable {K : Type} [RCLike K]

theorem modesList_eq (n : List ℕ) : modesList n = Spec.repeatedIndices n := by
  rw [modesList, Spec.repeatedIndices, ← List.flatMap_def]
  generalize List.range n.length = l
  induction l with
  | nil => rfl
  | cons x l ih =>
    rw [List.filter_cons]
    by_cases h : n.getD x 0 > 0
    · rw [if_pos (by simpa using h), List.flatMap_cons, List.flatMap_cons, ih]
    · rw [if_neg (by simpa using h), List.flatMap_cons, ih]
      have : n.getD x 0 = 0 := by omega
      simp only [this, List.replicate_zero, List.nil_append]

theorem facProd_eq (n : List ℕ) : facProd n = (n.map fun k => (k.factorial : ℝ)).prod := by
  rw [facProd, List.prod_eq_foldl]

theorem facProd_ofFn {M : ℕ} (m : Fin M → ℕ) : facProd (List.ofFn m) = ∏ i, ((m i).factorial : ℝ) := by
  rw [facProd_eq, List.map_ofFn, List.prod_ofFn]; rfl

theorem facProd_pos (n : List ℕ) : 0 < facProd n := by
  rw [facProd_eq]
  apply List.prod_pos
  intro a ha
  simp only [List.mem_map] at ha
  obtain ⟨k, _, rfl⟩ := ha
  exact_mod_cast k.factorial_pos

theorem list_eq_ofFn {k : ℕ} (l : List ℕ) (h : l.length = k) : l = List.ofFn fun i : Fin k => l.getD i 0 := by
  subst h
  apply List.ext_getElem
  · simp
  · intro i h1 h2; simp [List.getD_eq_getElem?_getD, h1]

/-- **C43** the value of `fock_prob(n, m, U)` when the photon numbers agree and the modes exist: the squared modulus of
the permanent of `U` with row `i` repeated `m[i]` times and column `j` repeated `n[j]` times, over the factorials. -/
theorem fockProb_value (n m : List ℕ) (rows cols : ℕ) (U : ℕ → ℕ → K) (hs : n.sum = m.sum) (hn : n.length ≤ cols)
    (hm : m.length ≤ rows) :
    fockProb n m rows cols U = .ok (‖permSpec (Matrix.of fun i j : Fin n.sum =>
        U ((Spec.repeatedIndices m).getD i 0) ((Spec.repeatedIndices n).getD j 0))‖ ^ 2
      / ((n.map fun k => (k.factorial : ℝ)).prod * (m.map fun k => (k.factorial : ℝ)).prod)) := by
  unfold fockProb
  simp only [ne_eq, hs, not_true_eq_false, if_false, modesList_eq, facProd_eq]
  have hl1 : (Spec.repeatedIndices m).length = m.sum := repeatedIndices_length m
  have hl2 : (Spec.repeatedIndices n).length = m.sum := by rw [repeatedIndices_length, hs]
  have hany : ((Spec.repeatedIndices m).any (fun x => decide (x ≥ rows)) || (Spec.repeatedIndices n).any (fun x => decide (x ≥ cols))) = false := by
    rw [Bool.or_eq_false_iff, List.any_eq_false, List.any_eq_false]
    refine ⟨fun x hx => ?_, fun x hx => ?_⟩
    · have := repeatedIndices_lt hx; simp; omega
    · have := repeatedIndices_lt hx; simp; omega
  rw [hany]
  simp only [Bool.false_eq_true, if_false]
  set o := Spec.repeatedIndices m
  set inn := Spec.repeatedIndices n
  have hobj : (PyObj.arr o.length inn.length fun i j => some (U (o.getD i 0) (inn.getD j 0)) : PyObj K)
      = PyObj.ofMatrix (Matrix.of fun i j : Fin m.sum => U (o.getD i 0) (inn.getD j 0))
          (fun i j => some (U (o.getD i 0) (inn.getD j 0))) := by
    rw [hl1, hl2]
    unfold PyObj.ofMatrix
    congr 1
    funext i j
    split <;> rfl
  rw [hobj, perm_correct]
  simp only [bind, Except.bind, pure, Except.pure]
  congr 2
  clear_value o inn
  generalize n.sum = k at hs
  subst hs
  rfl

theorem fockProb_permL (n m : List ℕ) (rows cols : ℕ) (U : ℕ → ℕ → K) (hs : n.sum = m.sum) (hn : n.length ≤ cols)
    (hm : m.length ≤ rows) :
    fockProb n m rows cols U = .ok (‖permL U (Spec.repeatedIndices m) (Spec.repeatedIndices n)‖ ^ 2
      / (facProd n * facProd m)) := by
  rw [fockProb_value n m rows cols U hs hn hm, facProd_eq, facProd_eq]
  congr 4
  rw [list_eq_ofFn (Spec.repeatedIndices m) (k := n.sum) (by rw [repeatedIndices_length, hs]),
    list_eq_ofFn (Spec.repeatedIndices n) (k := n.sum) (repeatedIndices_length n), permL_ofFn, permSpec]
  refine Finset.sum_congr rfl fun σ _ => Finset.prod_congr rfl fun i _ => ?_
  simp [List.getD_eq_getElem?_getD]

/-- **C43** unequal photon numbers raise `ValueError`. -/
theorem fockProb_raises (n m : List ℕ) (rows cols : ℕ) (U : ℕ → ℕ → K) (hs : n.sum ≠ m.sum) :
    fockProb n m rows cols U = .error .valueError := by
  simp [fockProb, hs, throw, throwThe, MonadExceptOf.throw]

theorem gram_univ {M N : ℕ} (U : Matrix (Fin M) (Fin N) K) (junk : ℕ → ℕ → K) (a b : Fin N) :
    gram (fun r : Fin M => ofMatrix U junk r) univ a b = (Uᴴ * U) a b := by
  simp only [gram, Matrix.mul_apply, Matrix.conjTranspose_apply]
  refine Finset.sum_congr rfl fun r _ => ?_
  simp [ofMatrix]

theorem permL_one {n : List ℕ} {M : ℕ} (hn : n.length = M) (G : ℕ → ℕ → K)
    (hG : ∀ a b : Fin M, G a b = (1 : Matrix (Fin M) (Fin M) K) a b) :
    permL G (Spec.repeatedIndices n) (Spec.repeatedIndices n) = (facProd n : K) := by
  rw [permL_congr (b := fun a b => if a = b then 1 else 0), permL_delta, facProd_eq]
  · rw [← RCLike.ofReal_natCast]
    congr 1
    clear hG hn
    induction n with
    | nil => simp
    | cons k n ih => simp only [List.map_cons, List.prod_cons, Nat.cast_mul]; rw [ih]
  · intro x hx y hy
    have hx := repeatedIndices_lt hx
    have hy := repeatedIndices_lt hy
    rw [hn] at hx hy
    have := hG ⟨x, hx⟩ ⟨y, hy⟩
    simpa [Matrix.one_apply, Fin.ext_iff] using this

/-- **C43** for an isometry `U` (in particular a unitary) the probabilities returned by `fock_prob` for all output patterns
with the input photon number are non-negative and sum to 1. -/
theorem fockProb_normalised {M N : ℕ} (U : Matrix (Fin M) (Fin N) K) (hU : Uᴴ * U = 1) (junk : ℕ → ℕ → K)
    (n : List ℕ) (hn : n.length = N) :
    ∃ q : (Fin M → ℕ) → ℝ,
      (∀ m ∈ piAntidiag (univ : Finset (Fin M)) n.sum, fockProb n (List.ofFn m) M N (ofMatrix U junk) = .ok (q m) ∧ 0 ≤ q m) ∧
      ∑ m ∈ piAntidiag (univ : Finset (Fin M)) n.sum, q m = 1 := by
  refine ⟨fun m => ‖permL (ofMatrix U junk) (Spec.repeatedIndices (List.ofFn m)) (Spec.repeatedIndices n)‖ ^ 2
      / (facProd n * facProd (List.ofFn m)), ?_, ?_⟩
  · intro m hm
    refine ⟨fockProb_permL n (List.ofFn m) M N _ ?_ (by omega) (by simp), ?_⟩
    · rw [List.sum_ofFn]; exact (mem_piAntidiag.mp hm).1.symm
    · have := facProd_pos n
      have := facProd_pos (List.ofFn m)
      positivity
  · have h := sum_patterns (ofMatrix U junk) (univ : Finset (Fin M)) (Spec.repeatedIndices n)
    rw [repeatedIndices_length, permL_one hn _ (fun a b => by rw [gram_univ, hU])] at h
    have h' := RCLike.ofReal_inj.mp h
    simp only [Finset.mem_univ, implies_true, Finset.filter_true] at h'
    have hp := facProd_pos n
    rw [← div_self hp.ne']
    conv_rhs => arg 1; rw [← h']
    rw [Finset.sum_div]
    refine Finset.sum_congr rfl fun m _ => ?_
    dsimp only
    rw [facProd_ofFn, div_div, mul_comm (facProd n)]

/-! ### C44 -/

/-- **C44** `brs(A, E)` is the signed sum, over subsets `S` of rows, of the permanents of `A_S^† A_S + E`. -/
theorem brs_correct {m n : ℕ} (A : Matrix (Fin m) (Fin n) K) (E : Matrix (Fin n) (Fin n) K) (jA jE : ℕ → ℕ → K) :
    brs m n (ofMatrix A jA) (ofMatrix E jE)
      = .ok (∑ S : Finset (Fin m), (-1) ^ (m - S.card) *
          permSpec (Matrix.of fun a b => (∑ r ∈ S, star (A r a) * A r b) + E a b)) := by
  rw [brs_eq]
  congr 1
  refine Finset.sum_congr rfl fun S _ => ?_
  rw [← permL_range, permSpec_eq]
  congr 2
  ext a b
  simp [toMatrix, gram, ofMatrix]

/-- **C44** `ubrs(A)` is the same sum with `E = 0` and without the empty subset. -/
theorem ubrs_correct {m n : ℕ} (A : Matrix (Fin m) (Fin n) K) (jA : ℕ → ℕ → K) :
    ubrs m n (ofMatrix A jA)
      = .ok (∑ S ∈ (univ : Finset (Finset (Fin m))).erase ∅, (-1) ^ (m - S.card) *
          permSpec (Matrix.of fun a b => ∑ r ∈ S, star (A r a) * A r b)) := by
  rw [ubrs_eq]
  congr 1
  have h : ∀ S : Finset (Fin m), permL (gram (fun r : Fin m => ofMatrix A jA r) S) (List.range n) (List.range n)
      = permSpec (Matrix.of fun a b => ∑ r ∈ S, star (A r a) * A r b) := by
    intro S
    rw [← permL_range, permSpec_eq]
    congr 1
    ext a b
    simp [toMatrix, gram, ofMatrix]
  have h0 := h ∅
  rw [gram_empty] at h0
  simp only [h, h0]
  rw [← Finset.add_sum_erase univ _ (Finset.mem_univ ∅)]
  simp

theorem incl_excl {c : ℕ} (w : Fin c → Prop) [DecidablePred w] :
    ∑ S : Finset (Fin c), (-1 : ℝ) ^ (c - S.card) * (if ∀ k, w k → k ∈ S then 1 else 0) = if ∀ k, w k then 1 else 0 := by
  have h := Finset.prod_add (fun _ : Fin c => (1 : ℝ)) (fun k => if w k then 0 else -1) univ
  have h1 : ∀ k, (1 : ℝ) + (if w k then 0 else -1) = if w k then 1 else 0 := by intro k; split <;> norm_num
  simp only [h1, Finset.prod_const_one, one_mul, Finset.powerset_univ] at h
  rw [Finset.prod_ite_zero, Finset.prod_const_one] at h
  simp only [Finset.mem_univ, forall_true_left] at h
  rw [h]
  refine Finset.sum_congr rfl fun S _ => ?_
  have h2 : ∏ k ∈ univ \ S, (if w k then (0 : ℝ) else -1) = ∏ k ∈ univ \ S, (if ¬ w k then (-1 : ℝ) else 0) := by
    refine Finset.prod_congr rfl fun k _ => ?_
    split_ifs <;> simp_all
  rw [h2, Finset.prod_ite_zero, Finset.prod_const, Finset.card_sdiff_of_subset (Finset.subset_univ S), Finset.card_univ, Fintype.card_fin]
  by_cases hw : ∀ k, w k → k ∈ S
  · rw [if_pos hw, if_pos, mul_one]
    intro k hk hwk
    exact (Finset.mem_sdiff.mp hk).2 (hw k hwk)
  · rw [if_neg hw, if_neg, mul_zero]
    push Not at hw ⊢
    obtain ⟨k, h1, h2⟩ := hw
    exact ⟨k, by simp [h2], h1⟩

theorem permL_zero (N : ℕ) (hN : 0 < N) : permL (fun _ _ : ℕ => (0 : K)) (List.range N) (List.range N) = 0 := by
  obtain ⟨N, rfl⟩ : ∃ k, N = k + 1 := ⟨N - 1, by omega⟩
  rw [List.range_succ_eq_map, permL]
  rw [eSum_congr (G := fun _ _ => 0) (fun y ys _ => by simp), eSum_zero]

/-- the rows of `T` and below them those of `L` -/
def stack {M R N : ℕ} (T : Matrix (Fin M) (Fin N) K) (L : Matrix (Fin R) (Fin N) K) : Matrix (Fin (M + R)) (Fin N) K :=
  Matrix.of (Fin.append (fun i => T i) (fun i => L i))

theorem stack_isometry {M R N : ℕ} (T : Matrix (Fin M) (Fin N) K) (L : Matrix (Fin R) (Fin N) K)
    (h : Tᴴ * T + Lᴴ * L = 1) : (stack T L)ᴴ * stack T L = 1 := by
  rw [← h]
  ext a b
  simp [Matrix.mul_apply, stack, Fin.sum_univ_add, Matrix.add_apply]

/-- list of clicked modes -/
def clicked (d : List ℕ) : List ℕ := (List.range d.length).filter fun i => d.getD i 0 > 0

theorem mem_clicked {d : List ℕ} {x : ℕ} : x ∈ clicked d ↔ x < d.length ∧ d.getD x 0 > 0 := by
  rw [clicked, List.mem_filter, List.mem_range, decide_eq_true_eq]

theorem clicked_lt {d : List ℕ} {i : ℕ} (hi : i < (clicked d).length) : (clicked d).getD i 0 < d.length := by
  have := mem_clicked.mp (List.getElem_mem hi)
  rw [List.getD_eq_getElem?_getD, List.getElem?_eq_getElem hi]
  exact this.1

/-- the embedding of the clicked modes into all modes -/
def clickedFin {M : ℕ} (d : List ℕ) (hd : d.length = M) (i : Fin (clicked d).length) : Fin M :=
  ⟨(clicked d).getD i 0, hd ▸ clicked_lt i.2⟩

theorem clickedFin_injective {M : ℕ} (d : List ℕ) (hd : d.length = M) : Function.Injective (clickedFin d hd) := by
  intro i j h
  have hn : (clicked d).Nodup := List.Nodup.filter _ List.nodup_range
  simp only [clickedFin, Fin.mk.injEq, List.getD_eq_getElem?_getD, List.getElem?_eq_getElem i.2, List.getElem?_eq_getElem j.2,
    Option.getD_some] at h
  exact Fin.ext (hn.getElem_inj_iff.mp h)

theorem clickedFin_range {M : ℕ} (d : List ℕ) (hd : d.length = M) (i : Fin M) :
    (∃ k, clickedFin d hd k = i) ↔ d.getD i 0 ≠ 0 := by
  constructor
  · rintro ⟨k, rfl⟩
    have := (mem_clicked.mp (List.getElem_mem k.2)).2
    simp only [clickedFin]
    rw [List.getD_eq_getElem?_getD (i := k.1), List.getElem?_eq_getElem k.2, Option.getD_some]
    omega
  · intro h
    have hm : (i : ℕ) ∈ clicked d := by
      exact mem_clicked.mpr ⟨by rw [hd]; exact i.2, by omega⟩
    obtain ⟨k, hk, hki⟩ := List.mem_iff_getElem.mp hm
    refine ⟨⟨k, hk⟩, Fin.ext ?_⟩
    simp [clickedFin, List.getD_eq_getElem?_getD, hk, hki]

/-- The signed subset sum of `brs` in `fock_threshold_prob`, for a dilation `L` of `T`. -/
theorem brs_patterns {M R N : ℕ} (T : Matrix (Fin M) (Fin N) K) (L : Matrix (Fin R) (Fin N) K) (jT jV : ℕ → ℕ → K)
    (n d : List ℕ) (hn : n.length = N) (hd : d.length = M) (E : ℕ → ℕ → K)
    (hE : ∀ a b : Fin N, E a b = (Lᴴ * L) a b) :
    ∑ S : Finset (Fin (clicked d).length), (-1 : K) ^ ((clicked d).length - S.card) *
      permL (fun a b => gram (fun r : Fin (clicked d).length => fun j => ofMatrix T jT ((clicked d).getD r 0) ((Spec.repeatedIndices n).getD j 0)) S a b
          + E ((Spec.repeatedIndices n).getD a 0) ((Spec.repeatedIndices n).getD b 0)) (List.range n.sum) (List.range n.sum)
      = ((∑ p ∈ (piAntidiag (univ : Finset (Fin (M + R))) n.sum).filter
            (fun p => ∀ i : Fin M, p (Fin.castAdd R i) ≠ 0 ↔ d.getD i 0 ≠ 0),
          ‖permL (ofMatrix (stack T L) jV) (Spec.repeatedIndices (List.ofFn p)) (Spec.repeatedIndices n)‖ ^ 2
            / (∏ i, ((p i).factorial : ℝ)) : ℝ) : K) := by
  set l := Spec.repeatedIndices n with hl
  set c := (clicked d).length with hc
  have hll : l.length = n.sum := repeatedIndices_length n
  let sup : Finset (Fin c) → Finset (Fin (M + R)) := fun S =>
    (S.image (fun k => Fin.castAdd R (clickedFin d hd k))) ∪ univ.image (Fin.natAdd M)
  have hterm : ∀ S : Finset (Fin c),
      permL (fun a b => gram (fun r : Fin c => fun j => ofMatrix T jT ((clicked d).getD r 0) (l.getD j 0)) S a b
          + E (l.getD a 0) (l.getD b 0)) (List.range n.sum) (List.range n.sum)
        = permL (gram (fun r : Fin (M + R) => ofMatrix (stack T L) jV r) (sup S)) l l := by
    intro S
    have hlm : l = (List.range n.sum).map fun i => l.getD i 0 := by
      apply List.ext_getElem
      · simp [hll]
      · intro i h1 h2; simp [List.getD_eq_getElem?_getD, h1]
    conv_rhs => rw [hlm]
    rw [permL_map]
    apply permL_congr
    intro a ha b hb
    rw [List.mem_range, ← hll] at ha hb
    have hla : l.getD a 0 < N := by
      rw [List.getD_eq_getElem?_getD, List.getElem?_eq_getElem ha, Option.getD_some, ← hn]
      exact repeatedIndices_lt (List.getElem_mem (l := l) _)
    have hlb : l.getD b 0 < N := by
      rw [List.getD_eq_getElem?_getD, List.getElem?_eq_getElem hb, Option.getD_some, ← hn]
      exact repeatedIndices_lt (List.getElem_mem (l := l) _)
    rw [hE ⟨_, hla⟩ ⟨_, hlb⟩]
    simp only [gram, sup]
    rw [Finset.sum_union, Finset.sum_image, Finset.sum_image]
    · congr 1
      · refine Finset.sum_congr rfl fun r _ => ?_
        have hr := (clickedFin d hd r).2
        simp only [clickedFin] at hr
        simp [ofMatrix, stack, clickedFin, hr, hla, hlb, Fin.append, Fin.addCases, Nat.lt_add_right, -List.getD_eq_getElem?_getD]
      · rw [Matrix.mul_apply]
        refine Finset.sum_congr rfl fun r _ => ?_
        simp [ofMatrix, stack, hla, hlb, Fin.append, Fin.addCases, -List.getD_eq_getElem?_getD]
    · intro x _ y _ h; exact Fin.natAdd_injective _ _ h
    · intro x _ y _ h
      exact clickedFin_injective d hd (Fin.castAdd_injective _ _ h)
    · rw [Finset.disjoint_left]
      intro x hx hy
      rw [Finset.mem_image] at hx hy
      obtain ⟨u, _, rfl⟩ := hx
      obtain ⟨v, _, hv⟩ := hy
      have := congrArg Fin.val hv
      simp at this
      have := (clickedFin d hd u).2
      omega
  simp only [hterm]
  have hpat := fun S => sum_patterns (ofMatrix (stack T L) jV) (sup S) l
  rw [hll] at hpat
  simp only [← hpat]
  have hcast : ∀ k : ℕ, (-1 : K) ^ k = (((-1 : ℝ) ^ k : ℝ) : K) := by intro k; simp
  simp only [hcast, ← RCLike.ofReal_mul, ← RCLike.ofReal_sum]
  congr 1
  simp only [Finset.sum_filter, Finset.mul_sum]
  rw [Finset.sum_comm]
  refine Finset.sum_congr rfl fun p _ => ?_
  have hcond : ∀ S : Finset (Fin c), (∀ i, p i ≠ 0 → i ∈ sup S) ↔
      (∀ i : Fin M, p (Fin.castAdd R i) ≠ 0 → d.getD i 0 ≠ 0) ∧
        ∀ k, p (Fin.castAdd R (clickedFin d hd k)) ≠ 0 → k ∈ S := by
    intro S
    constructor
    · intro h
      refine ⟨fun i hi => ?_, fun k hk => ?_⟩
      · have := h _ hi
        simp only [sup, Finset.mem_union, Finset.mem_image, Finset.mem_univ, true_and] at this
        rcases this with ⟨k, _, hk⟩ | ⟨k, hk⟩
        · rw [← clickedFin_range d hd i]
          exact ⟨k, Fin.castAdd_injective _ _ hk⟩
        · have := congrArg Fin.val hk; simp at this; omega
      · have := h _ hk
        simp only [sup, Finset.mem_union, Finset.mem_image, Finset.mem_univ, true_and] at this
        rcases this with ⟨k', hk'S, hk'⟩ | ⟨k', hk'⟩
        · rw [← clickedFin_injective d hd (Fin.castAdd_injective _ _ hk')]; exact hk'S
        · have := congrArg Fin.val hk'; simp at this
          have := (clickedFin d hd k).2
          omega
    · rintro ⟨h1, h2⟩ i hi
      simp only [sup, Finset.mem_union, Finset.mem_image, Finset.mem_univ, true_and]
      refine Fin.addCases (fun i hi => ?_) (fun i hi => ?_) i hi
      · obtain ⟨k, hk⟩ := (clickedFin_range d hd i).mpr (h1 i hi)
        left
        subst hk
        exact ⟨k, h2 k hi, rfl⟩
      · right; exact ⟨i, rfl⟩
  set x := ‖permL (ofMatrix (stack T L) jV) (Spec.repeatedIndices (List.ofFn p)) l‖ ^ 2 / (∏ i, ((p i).factorial : ℝ)) with hx
  have hie := incl_excl (fun k : Fin c => p (Fin.castAdd R (clickedFin d hd k)) ≠ 0)
  simp only [hcond]
  by_cases hA : ∀ i : Fin M, p (Fin.castAdd R i) ≠ 0 → d.getD i 0 ≠ 0
  · have : ∀ S : Finset (Fin c), (-1 : ℝ) ^ (c - S.card) * (if (∀ i : Fin M, p (Fin.castAdd R i) ≠ 0 → d.getD i 0 ≠ 0) ∧
        (∀ k, p (Fin.castAdd R (clickedFin d hd k)) ≠ 0 → k ∈ S) then x else 0)
        = ((-1 : ℝ) ^ (c - S.card) * (if ∀ k, p (Fin.castAdd R (clickedFin d hd k)) ≠ 0 → k ∈ S then 1 else 0)) * x := by
      intro S
      by_cases hQ : ∀ k, p (Fin.castAdd R (clickedFin d hd k)) ≠ 0 → k ∈ S
      · rw [if_pos ⟨hA, hQ⟩, if_pos hQ, mul_one]
      · rw [if_neg (fun h => hQ h.2), if_neg hQ, mul_zero, zero_mul]
    simp only [this]
    rw [← Finset.sum_mul, hie]
    by_cases hB : ∀ k, p (Fin.castAdd R (clickedFin d hd k)) ≠ 0
    · rw [if_pos hB, if_pos, one_mul]
      intro i
      refine ⟨hA i, fun h => ?_⟩
      obtain ⟨k, rfl⟩ := (clickedFin_range d hd i).mpr h
      exact hB k
    · rw [if_neg hB, if_neg, zero_mul]
      intro h
      apply hB
      intro k
      exact (h _).mpr ((clickedFin_range d hd _).mp ⟨k, rfl⟩)
  · rw [if_neg]
    · apply Finset.sum_eq_zero
      intro S _
      rw [if_neg (fun h => hA h.1), mul_zero]
    · intro h; exact hA fun i => (h i).mp

/-- **C44** `fock_threshold_prob(n, d, T)` is the total probability (as given by `fock_prob`) of the output patterns that
have a photon in exactly the clicked modes, `T` being completed to an isometry by any `L` with `T^†T + L^†L = 1` (the rows
of `L` are the lost modes).  `htest`: the shortcut for unitary matrices is taken only if `T` is exactly an isometry and the
input is not the vacuum. -/
theorem fockThresholdProb_eq_sum {M R N : ℕ} (T : Matrix (Fin M) (Fin N) K) (L : Matrix (Fin R) (Fin N) K)
    (hTL : Tᴴ * T + Lᴴ * L = 1) (hMN : M ≤ N) (jT jV : ℕ → ℕ → K) (n d : List ℕ) (hn : n.length = N) (hd : d.length = M)
    (htest : (∀ a b : Fin N, ‖(1 - Tᴴ * T : Matrix (Fin N) (Fin N) K) a b‖ ≤ 1e-8) → Tᴴ * T = 1 ∧ 0 < n.sum)
    (q : (Fin (M + R) → ℕ) → ℝ)
    (hq : ∀ p ∈ piAntidiag (univ : Finset (Fin (M + R))) n.sum,
      fockProb n (List.ofFn p) (M + R) N (ofMatrix (stack T L) jV) = .ok (q p)) :
    fockThresholdProb n d M N (ofMatrix T jT)
      = .ok (∑ p ∈ (piAntidiag (univ : Finset (Fin (M + R))) n.sum).filter
          (fun p => ∀ i : Fin M, p (Fin.castAdd R i) ≠ 0 ↔ d.getD i 0 ≠ 0), q p) := by
  unfold fockThresholdProb
  rw [if_neg (by simpa using hn), if_neg (by simpa using hd), if_neg (by omega)]
  simp only [modesList_eq, repeatedIndices_length]
  set E : ℕ → ℕ → K := fun a b => (if a = b then 1 else 0) - gramRows (ofMatrix T jT) (List.range M) a b with hEdef
  have hEv : ∀ a b : Fin N, E a b = (1 - Tᴴ * T : Matrix (Fin N) (Fin N) K) a b := by
    intro a b
    simp only [hEdef, Matrix.sub_apply, Matrix.one_apply, Fin.ext_iff]
    congr 1
    rw [gramRows, Matrix.mul_apply, ← List.map_coe_finRange_eq_range, List.map_map]
    rw [← List.sum_toFinset _ (List.nodup_finRange M)]
    apply Finset.sum_congr
    · ext i; simp
    · intro i _; simp [ofMatrix]
  have hE : ∀ a b : Fin N, E a b = (Lᴴ * L) a b := by
    intro a b; rw [hEv, ← hTL]; simp
  have hcl : (List.range d.length).filter (fun i => decide (d.getD i 0 > 0)) = clicked d := rfl
  rw [hcl]
  have hfac : ∀ s : Finset (Fin (M + R) → ℕ), s ⊆ piAntidiag (univ : Finset (Fin (M + R))) n.sum →
      (∑ p ∈ s, ‖permL (ofMatrix (stack T L) jV) (Spec.repeatedIndices (List.ofFn p)) (Spec.repeatedIndices n)‖ ^ 2
            / (∏ i, ((p i).factorial : ℝ))) / facProd n = ∑ p ∈ s, q p := by
    intro s hs
    rw [Finset.sum_div]
    refine Finset.sum_congr rfl fun p hp => ?_
    have h1 := hq p (hs hp)
    rw [fockProb_permL n (List.ofFn p) _ _ _ (by rw [List.sum_ofFn]; exact (mem_piAntidiag.mp (hs hp)).1.symm) (by omega) (by simp)] at h1
    have h2 := Except.ok.inj h1
    rw [← h2, facProd_ofFn, div_div, mul_comm (facProd n)]
  have hmain := brs_patterns T L jT jV n d hn hd E hE
  by_cases hc : allClose2 (isClose 1e-5 1e-8) N N E (fun _ _ => 0) = true
  · rw [if_pos hc, ubrs_eq]
    rw [allClose2_eq_true] at hc
    obtain ⟨hT, hN⟩ := htest (fun a b => by
      have := hc a a.2 b b.2
      simp only [isClose, sub_zero, norm_zero, mul_zero, add_zero, decide_eq_true_eq] at this
      rwa [hEv] at this)
    have hE0 : ∀ a b : Fin N, E a b = 0 := by intro a b; rw [hEv, hT]; simp
    rw [permL_zero n.sum hN, mul_zero, sub_zero]
    have hsame : ∑ S : Finset (Fin (clicked d).length), (-1 : K) ^ ((clicked d).length - S.card) *
        permL (gram (fun r : Fin (clicked d).length => fun j => ofMatrix T jT ((clicked d).getD r 0) ((Spec.repeatedIndices n).getD j 0)) S)
          (List.range n.sum) (List.range n.sum) = _ := Eq.trans ?_ hmain
    · simp only [bind, Except.bind, pure, Except.pure]
      rw [hsame, RCLike.ofReal_re, hfac _ (Finset.filter_subset _ _)]
    · refine Finset.sum_congr rfl fun S _ => ?_
      congr 1
      apply permL_congr
      intro a ha b hb
      rw [List.mem_range, ← repeatedIndices_length] at ha hb
      have hlt : ∀ a, a < (Spec.repeatedIndices n).length → (Spec.repeatedIndices n).getD a 0 < N := by
        intro a ha
        rw [List.getD_eq_getElem?_getD, List.getElem?_eq_getElem ha, Option.getD_some, ← hn]
        exact repeatedIndices_lt (List.getElem_mem _)
      have := hE0 ⟨_, hlt a ha⟩ ⟨_, hlt b hb⟩
      simp only at this
      rw [this, add_zero]
  · rw [if_neg hc, brs_eq]
    simp only [bind, Except.bind, pure, Except.pure]
    rw [hmain, RCLike.ofReal_re, hfac _ (Finset.filter_subset _ _)]

/-- **C44** threshold probabilities of a Fock state through any contraction `T` are non-negative and the `2^M` of them sum
to 1 (`d i` says whether detector `i` clicks). -/
theorem fockThresholdProb_normalised {M N : ℕ} (T : Matrix (Fin M) (Fin N) K)
    (hT : (1 - Tᴴ * T : Matrix (Fin N) (Fin N) K).PosSemidef) (hMN : M ≤ N) (jT : ℕ → ℕ → K) (n : List ℕ) (hn : n.length = N)
    (htest : (∀ a b : Fin N, ‖(1 - Tᴴ * T : Matrix (Fin N) (Fin N) K) a b‖ ≤ 1e-8) → Tᴴ * T = 1 ∧ 0 < n.sum) :
    ∃ P : (Fin M → Bool) → ℝ,
      (∀ d, fockThresholdProb n (List.ofFn fun i => if d i then 1 else 0) M N (ofMatrix T jT) = .ok (P d) ∧ 0 ≤ P d) ∧
      ∑ d, P d = 1 := by
  obtain ⟨L, hL⟩ := CStarAlgebra.nonneg_iff_eq_star_mul_self.mp hT.nonneg
  have hTL : Tᴴ * T + Lᴴ * L = 1 := by rw [← Matrix.star_eq_conjTranspose L, ← hL]; abel
  obtain ⟨q, hq, hsum⟩ := fockProb_normalised (stack T L) (stack_isometry T L hTL) (fun _ _ => 0) n hn
  refine ⟨fun d => ∑ p ∈ (piAntidiag (univ : Finset (Fin (M + N))) n.sum).filter
          (fun p => (fun i : Fin M => decide (p (Fin.castAdd N i) ≠ 0)) = d), q p, ?_, ?_⟩
  · intro d
    refine ⟨?_, Finset.sum_nonneg fun p hp => (hq p (Finset.mem_filter.mp hp).1).2⟩
    rw [fockThresholdProb_eq_sum T L hTL hMN jT (fun _ _ => 0) n _ hn (by simp) htest q (fun p hp => (hq p hp).1)]
    congr 1
    apply Finset.sum_congr _ (fun _ _ => rfl)
    apply Finset.filter_congr
    intro p _
    rw [funext_iff]
    apply forall_congr'
    intro i
    cases h : d i <;> simp [List.getD_eq_getElem?_getD, h]
  · rw [← hsum]
    exact Finset.sum_fiberwise_of_maps_to (g := fun p : Fin (M + N) → ℕ => fun i : Fin M => decide (p (Fin.castAdd N i) ≠ 0))
      (fun _ _ => Finset.mem_univ _) q

/-- **C44** (defect) for the vacuum through a unitary the code returns 0 for "no click" instead of 1: `ubrs` drops the empty
subset, whose term is 1 when there are no photons. -/
theorem fockThresholdProb_vacuum_wrong :
    fockThresholdProb [0] [0] 1 1 (fun _ _ => (1 : ℂ)) = .ok 0 := by
  unfold fockThresholdProb
  rw [if_neg (by simp), if_neg (by simp), if_neg (by simp)]
  simp only
  rw [if_pos]
  · have hC : (List.range ([0] : List ℕ).length).filter (fun i => decide (([0] : List ℕ).getD i 0 > 0)) = [] := by decide
    rw [hC, ubrs_eq]
    simp [modesList, permL, bind, Except.bind, pure, Except.pure]
  · simp [allClose2, isClose, gramRows]; norm_num

/-- **C44** argument checks. -/
theorem fockThresholdProb_raises (n d : List ℕ) (mo mi : ℕ) (T : ℕ → ℕ → K)
    (h : n.length ≠ mi ∨ d.length ≠ mo ∨ mi < mo) : fockThresholdProb n d mo mi T = .error .valueError := by
  unfold fockThresholdProb
  split
  · rfl
  · split
    · rfl
    · split
      · rfl
      · omega

/-- Non-vacuity: a lossy 1-mode channel (`T = 3/5`, `L = 4/5`). -/
example : ((1 : Matrix (Fin 1) (Fin 1) ℝ) - (!![(3/5 : ℝ)])ᴴ * !![(3/5 : ℝ)]).PosSemidef ∧
    ((∀ a b : Fin 1, ‖((1 : Matrix (Fin 1) (Fin 1) ℝ) - (!![(3/5 : ℝ)])ᴴ * !![(3/5 : ℝ)]) a b‖ ≤ 1e-8) →
      (!![(3/5 : ℝ)])ᴴ * !![(3/5 : ℝ)] = 1 ∧ 0 < [2].sum) := by
  have e : (1 : Matrix (Fin 1) (Fin 1) ℝ) - (!![(3/5 : ℝ)])ᴴ * !![(3/5 : ℝ)] = (!![(4/5 : ℝ)])ᴴ * !![(4/5 : ℝ)] := by
    ext i j; fin_cases i; fin_cases j
    simp [Matrix.mul_apply]; norm_num
  rw [e]
  refine ⟨Matrix.posSemidef_conjTranspose_mul_self _, ?_⟩
  intro h
  have := h 0 0
  simp [Matrix.mul_apply] at this
  norm_num at this

/-- Non-vacuity: a unitary for `fockProb_normalised`. -/
example : (!![(3/5 : ℝ), 4/5; -4/5, 3/5])ᴴ * !![(3/5 : ℝ), 4/5; -4/5, 3/5] = 1 := by
  ext i j; fin_cases i <;> fin_cases j <;> simp [Matrix.mul_apply, Fin.sum_univ_two] <;> norm_num

end Verif.Props
