/-
C37: `n_body_marginals`.
-/
import Verif.Props.Tvd
import Verif.Props.Coherent
import Verif.Lemmas.Marginals

set_option linter.unusedSectionVars false
set_option linter.unusedSimpArgs false

namespace Verif.Props
open Verif.Model Verif.Model.Symp Verif.Model.Conv Verif.Model.Fock Verif.Spec Verif.Lemmas Verif.Lemmas.Symp Verif.Lemmas.FPar Verif.Lemmas.Marg Matrix

variable {N : ℕ} {hbar : ℝ} {ρ : (Fin N → ℕ) → (Fin N → ℕ) → ℂ}

/-- `list(set(ind))` in increasing order, as CPython returns it for sets of integers below 8 -/
def AscendingSets (setOrder : List ℕ → List ℕ) : Prop := ∀ l, (setOrder l).Pairwise (· < ·) ∧ ∀ x, x ∈ setOrder l ↔ x ∈ l

theorem setOrder_eq {setOrder : List ℕ → List ℕ} (hset : AscendingSets setOrder) (ind : List ℕ) : setOrder ind = srt (fromKeys ind) :=
  eq_of_sorted_mem (hset ind).1 (srt_lt (fromKeys_nodup ind)) fun x => by rw [(hset ind).2, (srt_perm _).mem_iff, mem_fromKeys]

/-- the probabilities of a reduced state are marginals -/
theorem reduced_probabilities {sjunk : ℕ → ℂ} (closeR : ℝ → ℝ → Bool) (s : GState ℝ) (hs : s.len = 2 * N) (cutoff : ℕ) (hc : 0 < cutoff) (hc2 : cutoff ≤ 1000)
    (atol : ℝ) (hh : 0 < hbar) (hph : Physical (phase N N s.cov) hbar) (hρ : IsFockMatrix N s.mu s.cov hbar ρ)
    (hcp : ∀ modes sub, modes.Nodup → reducedState s modes = .ok sub → Checks.isPureCov closeR sub.len sub.len sub.cov hbar atol = true →
      ((2 / hbar) • phase (sub.len / 2) (sub.len / 2) sub.cov).det = 1)
    (htol : ∀ k < N, (s.mu k = 0 ∧ s.mu (N + k) = 0) ∨ (1 / 10 ^ 10) ^ 2 ≤ (s.mu k ^ 2 + s.mu (N + k) ^ 2) / (2 * hbar))
    (modes : List ℕ) (hne : modes ≠ []) (hn : modes.Nodup) (hb : ∀ m ∈ modes, m < N) :
    ∃ sub P, reducedState s modes = .ok sub ∧ probabilities (sqrtTable sjunk) (isClose 0 0) closeR (sub.len / 2) sub.mu sub.cov cutoff false hbar atol = .ok P ∧
      IsMarginal (fun n => (ρ n n).re) modes cutoff P := by
  obtain ⟨sub, hr, hred⟩ := reducedState_eq N s hs modes hne hb
  obtain ⟨ρ', hphr, hρ', hpt⟩ := reduction_trace s sub modes hn hb hred hh hph hρ
  have hlen := hred.len
  have hl2 : sub.len / 2 = modes.length := by omega
  have hm0 : modes.length ≠ 0 := fun h => hne (List.length_eq_zero_iff.mp h)
  have hcp' := hcp modes sub hn hr
  rw [hl2, hlen] at hcp'
  have hmode : ∀ a < modes.length, modes.getD a 0 < N := by
    intro a ha
    rw [List.getD_eq_getElem _ _ ha]
    exact hb _ (List.getElem_mem _)
  have htol' : (∀ i < 2 * modes.length, sub.mu i = 0) ∨ 1 / 10 ^ 10 ≤ Real.sqrt ((∑ i ∈ Finset.range (2 * modes.length), sub.mu i ^ 2) / (2 * hbar)) := by
    by_cases hall : ∀ a < modes.length, s.mu (modes.getD a 0) = 0 ∧ s.mu (N + modes.getD a 0) = 0
    · left
      intro i hi
      by_cases hi2 : i < modes.length
      · rw [(hred.mean i hi2).1]
        exact (hall i hi2).1
      · have := (hred.mean (i - modes.length) (by omega)).2
        rw [show modes.length + (i - modes.length) = i by omega] at this
        rw [this]
        exact (hall _ (by omega)).2
    · right
      push Not at hall
      obtain ⟨a, ha, hna⟩ := hall
      have h1 := (htol _ (hmode a ha)).resolve_left fun h => hna h.1 h.2
      apply Real.le_sqrt_of_sq_le
      refine h1.trans (div_le_div_of_nonneg_right ?_ (by positivity))
      rw [← (hred.mean a ha).1, ← (hred.mean a ha).2]
      have hsub : ({a, modes.length + a} : Finset ℕ) ⊆ Finset.range (2 * modes.length) := by
        intro i hi
        rw [Finset.mem_insert, Finset.mem_singleton] at hi
        rw [Finset.mem_range]
        omega
      have := Finset.sum_le_sum_of_subset_of_nonneg (f := fun i => sub.mu i ^ 2) hsub fun i _ _ => sq_nonneg _
      rwa [Finset.sum_pair (by omega)] at this
  obtain ⟨ρ'', hρ'', -, hP⟩ := probabilities_correct (sjunk := sjunk) hm0 closeR sub.mu sub.cov hbar atol hh hphr hcp' htol'
  obtain rfl : ρ' = ρ'' := fockMatrix_unique hρ' hρ''
  obtain ⟨P, hPok, hPv⟩ := hP cutoff false hc hc2
  rw [← hl2] at hPok
  refine ⟨sub, P, hr, hPok, fun x hx => ?_⟩
  have e1 : (List.range modes.length).map x = List.ofFn fun a : Fin modes.length => x a := by
    apply List.ext_getElem
    · simp
    · intro i h1 h2
      simp
  have h1 := hPv (fun a => x a) fun a => hx a a.2
  have h2 := Complex.hasSum_re (partialTrace_marginal hpt fun a => x a)
  rw [e1, show P (List.ofFn fun a : Fin modes.length => x a) = (ρ' (fun a => x a) fun a => x a).re by rw [← h1, Complex.ofReal_re]]
  let E : {n : Fin N → ℕ // ∀ (k : Fin N) (a : ℕ), a < modes.length → modes.getD a 0 = k → n k = x a} ≃
      {n : Fin N → ℕ // (n ∘ fun a : Fin modes.length => (⟨modes[a], hb _ (List.getElem_mem _)⟩ : Fin N)) = fun a : Fin modes.length => x a} :=
    Equiv.subtypeEquivRight fun n => by
      constructor
      · intro h
        funext a
        exact h _ a a.2 (List.getD_eq_getElem _ _ a.2)
      · intro h k a ha hk
        have h' := congrFun h ⟨a, ha⟩
        have hk' : (⟨modes[a], hb _ (List.getElem_mem _)⟩ : Fin N) = k := Fin.ext (by rw [← hk]; exact (List.getD_eq_getElem _ _ ha).symm)
        rw [← hk']
        exact h'
  exact E.hasSum_iff.mpr h2

/-- the values of the arrays: photon-number axes of the sorted tuple, rearranged by `np.argsort` -/
noncomputable def margVal (P : List ℕ → MArr ℝ) (u : List ℕ) : MArr ℝ := transposeT (argsort u) (P (srt u))

theorem marginals_loop {n : ℕ} (sq : ℕ → ℂ) (close : ℂ → ℂ → Bool) (closeR : ℝ → ℝ → Bool) (setOrder : List ℕ → List ℕ) (hset : AscendingSets setOrder)
    (s : GState ℝ) (cutoff : ℕ) (atol : ℝ) (P : List ℕ → MArr ℝ) (hn : 0 < n)
    (hP : ∀ modes, modes ≠ [] → modes.Pairwise (· < ·) → (∀ m ∈ modes, m < N) → ∃ sub, reducedState s modes = .ok sub ∧
      probabilities sq close closeR (sub.len / 2) sub.mu sub.cov cutoff false hbar atol = .ok (P modes))
    (L2 : List (List ℕ)) : ∀ (L1 : List (List ℕ)) (marg : Marg), ndindex (List.replicate n N) = L1 ++ L2 →
      (∀ ind ∈ L1, ∀ x : ℕ → ℕ, marg ((fromKeys ind).length - 1) (fromKeys ind) ((List.range (fromKeys ind).length).map x) =
        margVal P (fromKeys ind) ((List.range (fromKeys ind).length).map x)) →
      ∃ M : Marg, L2.foldlM (marginalStep sq close closeR setOrder s cutoff hbar atol) marg = .ok M ∧
        ∀ ind ∈ ndindex (List.replicate n N), ∀ x : ℕ → ℕ, M ((fromKeys ind).length - 1) (fromKeys ind) ((List.range (fromKeys ind).length).map x) =
          margVal P (fromKeys ind) ((List.range (fromKeys ind).length).map x) := by
  induction L2 with
  | nil =>
    intro L1 marg hL hinv
    rw [List.append_nil] at hL
    exact ⟨marg, rfl, by rwa [hL]⟩
  | cons ind L2 ih =>
    intro L1 marg hL hinv
    have hind : ind ∈ ndindex (List.replicate n N) := by rw [hL]; simp
    obtain ⟨hlen, hbd⟩ := (mem_ndindex_replicate n N ind).mp hind
    have hmodes := setOrder_eq hset ind
    set u := fromKeys ind with hu
    have hun : u.Nodup := fromKeys_nodup ind
    have hslen : (srt u).length = u.length := (srt_perm u).length_eq
    -- the step stores the right value
    have hstep : ∃ v : MArr ℝ, marginalStep sq close closeR setOrder s cutoff hbar atol marg ind =
        .ok (Function.update marg (u.length - 1) (Function.update (marg (u.length - 1)) u v)) ∧
        ∀ x : ℕ → ℕ, v ((List.range u.length).map x) = margVal P u ((List.range u.length).map x) := by
      unfold marginalStep
      by_cases hsort : ind = ind.insertionSort (· ≤ ·)
      · have hus : u.Pairwise (· < ·) := fromKeys_sorted (by rw [hsort]; exact srt_le ind)
        have hsu : srt u = u := eq_of_sorted_mem (srt_lt hun) hus fun x => (srt_perm u).mem_iff
        have hune : u ≠ [] := by
          intro h0
          have : ∀ x, x ∉ ind := fun x hx => by
            have := (mem_fromKeys ind x).mpr hx
            rw [← hu, h0] at this
            simp at this
          have : ind = [] := List.eq_nil_iff_forall_not_mem.mpr this
          rw [this] at hlen
          simp at hlen
          omega
        obtain ⟨sub, h1, h2⟩ := hP u hune hus fun m hm => hbd m ((mem_fromKeys ind m).mp hm)
        refine ⟨P u, ?_, fun x => ?_⟩
        · rw [if_pos hsort, hmodes, hsu, h1]
          simp only [bind, Except.bind, pure, Except.pure]
          rw [h2]
        · unfold margVal
          rw [hsu, transpose_eval hun]
          congr 1
          apply List.map_congr_left
          intro b hb
          rw [rank_of_sorted hus (List.mem_range.mp hb)]
      · refine ⟨transposeT (argsort u) (marg (u.length - 1) (srt u)), ?_, fun x => ?_⟩
        · rw [if_neg hsort, hmodes, ← hu, hslen]
        · have hmem : srt ind ∈ ndindex (List.replicate n N) := by
            rw [mem_ndindex_replicate]
            exact ⟨by rw [(srt_perm ind).length_eq, hlen], fun y hy => hbd y ((srt_perm ind).mem_iff.mp hy)⟩
          have hbef := sorted_before hL hmem fun h => hsort h.symm
          have hk : fromKeys (srt ind) = srt u :=
            eq_of_sorted_mem (fromKeys_sorted (srt_le ind)) (srt_lt hun) fun y => by
              rw [mem_fromKeys, (srt_perm ind).mem_iff, (srt_perm u).mem_iff, hu, mem_fromKeys]
          have hss : srt (srt u) = srt u := eq_of_sorted_mem (srt_lt (srt_lt hun |>.imp fun h => ne_of_lt h)) (srt_lt hun) fun y => (srt_perm _).mem_iff
          unfold margVal
          rw [transpose_eval hun, transpose_eval hun]
          have := hinv _ hbef fun b => x (rankIn u b)
          rw [hk, hslen] at this
          rw [this]
          unfold margVal
          have ht := transpose_eval (u := srt u) (srt_lt hun |>.imp fun h => ne_of_lt h) (P (srt (srt u))) fun b => x (rankIn u b)
          rw [hslen] at ht
          rw [ht, hss]
          congr 1
          apply List.map_congr_left
          intro b hb
          rw [rank_of_sorted (srt_lt hun) (by rw [hslen]; exact List.mem_range.mp hb)]
    obtain ⟨v, hv, hvx⟩ := hstep
    rw [List.foldlM_cons, hv]
    refine ih (L1 ++ [ind]) _ (by rw [hL]; simp) fun ind' hind' x => ?_
    by_cases he : fromKeys ind' = u
    · rw [he, Function.update_self, Function.update_self]
      exact hvx x
    · have h1 : ind' ∈ L1 := by
        rw [List.mem_append, List.mem_singleton] at hind'
        rcases hind' with h | h
        · exact h
        · exact absurd (by rw [h]) he
      by_cases hl : (fromKeys ind').length - 1 = u.length - 1
      · rw [hl, Function.update_self, Function.update_of_ne he, ← hl]
        exact hinv ind' h1 x
      · rw [Function.update_of_ne hl]
        exact hinv ind' h1 x

/-- C37: what the arrays contain.  Entry `x` of the array of the distinct modes `t` is the probability that each mode `t_a` has `x_{r(r(a))}` photons, where `r(a)` is
the position of `t_a` in the sorted tuple: the marginal distribution of `t` with its photon-number axes permuted by `r ∘ r`. -/
theorem nBodyMarginals_exact {sjunk : ℕ → ℂ} (closeR : ℝ → ℝ → Bool) (setOrder : List ℕ → List ℕ) (hset : AscendingSets setOrder) (s : GState ℝ)
    (hs : s.len = 2 * N) (cutoff : ℕ) (hc : 0 < cutoff) (hc2 : cutoff ≤ 1000) (n : ℕ) (hn : 0 < n) (hnN : n ≤ N)
    (atol : ℝ) (hh : 0 < hbar) (hph : Physical (phase N N s.cov) hbar)
    (hcp : ∀ modes sub, modes.Nodup → reducedState s modes = .ok sub → Checks.isPureCov closeR sub.len sub.len sub.cov hbar atol = true →
      ((2 / hbar) • phase (sub.len / 2) (sub.len / 2) sub.cov).det = 1)
    (htol : ∀ k < N, (s.mu k = 0 ∧ s.mu (N + k) = 0) ∨ (1 / 10 ^ 10) ^ 2 ≤ (s.mu k ^ 2 + s.mu (N + k) ^ 2) / (2 * hbar)) :
    ∃ (ρ : (Fin N → ℕ) → (Fin N → ℕ) → ℂ) (M : Marg), IsFockMatrix N s.mu s.cov hbar ρ ∧
      nBodyMarginals (sqrtTable sjunk) (isClose 0 0) closeR setOrder s s.len s.len cutoff n hbar atol = .ok M ∧
      ∀ t : List ℕ, t ≠ [] → t.Nodup → (∀ m ∈ t, m < N) → t.length ≤ n → ∀ x : ℕ → ℕ, (∀ a < t.length, x a < cutoff) →
        HasSum (fun n : {n : Fin N → ℕ // ∀ (k : Fin N) (a : ℕ), a < t.length → t.getD a 0 = k → n k = x (rankIn t (rankIn t a))} => (ρ n n).re)
          (M (t.length - 1) t ((List.range t.length).map x)) := by
  obtain ⟨ρ, pref, Pg, -, hρ, -⟩ := fock_gram (N := N) s.mu hh hph
  have hall := reduced_probabilities (sjunk := sjunk) closeR s hs cutoff hc hc2 atol hh hph hρ hcp htol
  haveI : Nonempty (GState ℝ) := ⟨s⟩
  choose! sub P h1 h2 h3 using hall
  obtain ⟨M, hM, hMv⟩ := marginals_loop (n := n) (N := N) (hbar := hbar) (sqrtTable sjunk) (isClose 0 0) closeR setOrder hset s cutoff atol P hn
    (fun modes hne hp hb => ⟨sub modes, h1 modes hne (hp.imp fun h => ne_of_lt h) hb, h2 modes hne (hp.imp fun h => ne_of_lt h) hb⟩)
    (ndindex (List.replicate n N)) [] (fun _ _ _ => 0) rfl (by simp)
  refine ⟨ρ, M, hρ, ?_, fun t hne htn htb htl x hx => ?_⟩
  · unfold nBodyMarginals
    rw [if_neg (by simp), if_neg (by omega), show s.len / 2 = N by omega, if_neg (by omega)]
    exact hM
  · obtain ⟨t0, ht0⟩ := List.exists_mem_of_ne_nil t hne
    have hmem : t ++ List.replicate (n - t.length) t0 ∈ ndindex (List.replicate n N) := by
      rw [mem_ndindex_replicate]
      refine ⟨by rw [List.length_append, List.length_replicate]; omega, fun y hy => ?_⟩
      rw [List.mem_append, List.mem_replicate] at hy
      rcases hy with hy | ⟨-, rfl⟩
      · exact htb y hy
      · exact htb _ ht0
    have hk : fromKeys (t ++ List.replicate (n - t.length) t0) = t :=
      fromKeys_pad htn _ fun y hy => by rw [List.eq_of_mem_replicate hy]; exact ht0
    have hv := hMv _ hmem x
    rw [hk] at hv
    rw [hv]
    unfold margVal
    rw [transpose_eval htn]
    have hsn : srt t ≠ [] := fun h => hne (List.length_eq_zero_iff.mp (by rw [← (srt_perm t).length_eq, h]; rfl))
    have hsl : (srt t).length = t.length := (srt_perm t).length_eq
    have hmar := h3 (srt t) hsn ((srt_perm t).nodup_iff.mpr htn) (fun m hm => htb m ((srt_perm t).mem_iff.mp hm)) (fun b => x (rankIn t b)) (by
      intro b hb
      exact hx _ (rank_lt htn (by rwa [hsl] at hb)))
    rw [hsl] at hmar
    let E : {n : Fin N → ℕ // ∀ (k : Fin N) (a : ℕ), a < t.length → t.getD a 0 = k → n k = x (rankIn t (rankIn t a))} ≃
        {n : Fin N → ℕ // ∀ (k : Fin N) (a : ℕ), a < t.length → (srt t).getD a 0 = k → n k = x (rankIn t a)} :=
      Equiv.subtypeEquivRight fun n => by
        constructor
        · intro h k a ha hk
          obtain ⟨b, hb, rfl⟩ := rank_surj htn ha
          rw [srt_rank htn hb] at hk
          exact h k b hb hk
        · intro h k a ha hk
          exact h k (rankIn t a) (rank_lt htn ha) (by rw [srt_rank htn ha]; exact hk)
    exact E.hasSum_iff.mpr hmar

/-- C37, for the orders of the modes for which it holds: if the sorting permutation of the tuple `t` of distinct modes is an involution (in particular if `t` is
increasing), `n_body_marginals` stores at `t` the marginal distribution of the modes `t`.  The full property, without this hypothesis, fails
(`nBodyMarginals_cyclic_false`). -/
theorem nBodyMarginals_partial {sjunk : ℕ → ℂ} (closeR : ℝ → ℝ → Bool) (setOrder : List ℕ → List ℕ) (hset : AscendingSets setOrder) (s : GState ℝ)
    (hs : s.len = 2 * N) (cutoff : ℕ) (hc : 0 < cutoff) (hc2 : cutoff ≤ 1000) (n : ℕ) (hn : 0 < n) (hnN : n ≤ N)
    (atol : ℝ) (hh : 0 < hbar) (hph : Physical (phase N N s.cov) hbar)
    (hcp : ∀ modes sub, modes.Nodup → reducedState s modes = .ok sub → Checks.isPureCov closeR sub.len sub.len sub.cov hbar atol = true →
      ((2 / hbar) • phase (sub.len / 2) (sub.len / 2) sub.cov).det = 1)
    (htol : ∀ k < N, (s.mu k = 0 ∧ s.mu (N + k) = 0) ∨ (1 / 10 ^ 10) ^ 2 ≤ (s.mu k ^ 2 + s.mu (N + k) ^ 2) / (2 * hbar)) :
    ∃ (ρ : (Fin N → ℕ) → (Fin N → ℕ) → ℂ) (M : Marg), IsFockMatrix N s.mu s.cov hbar ρ ∧
      nBodyMarginals (sqrtTable sjunk) (isClose 0 0) closeR setOrder s s.len s.len cutoff n hbar atol = .ok M ∧
      ∀ t : List ℕ, t ≠ [] → t.Nodup → (∀ m ∈ t, m < N) → t.length ≤ n → (∀ a < t.length, rankIn t (rankIn t a) = a) →
        IsMarginal (fun n => (ρ n n).re) t cutoff (M (t.length - 1) t) := by
  obtain ⟨ρ, M, hρ, hM, h⟩ := nBodyMarginals_exact (sjunk := sjunk) closeR setOrder hset s hs cutoff hc hc2 n hn hnN atol hh hph hcp htol
  refine ⟨ρ, M, hρ, hM, fun t hne htn htb htl hinv x hx => ?_⟩
  have := h t hne htn htb htl x hx
  let E : {n : Fin N → ℕ // ∀ (k : Fin N) (a : ℕ), a < t.length → t.getD a 0 = k → n k = x a} ≃
      {n : Fin N → ℕ // ∀ (k : Fin N) (a : ℕ), a < t.length → t.getD a 0 = k → n k = x (rankIn t (rankIn t a))} :=
    Equiv.subtypeEquivRight fun n => by
      constructor
      · intro h k a ha hk
        rw [hinv a ha]
        exact h k a ha hk
      · intro h k a ha hk
        have := h k a ha hk
        rwa [hinv a ha] at this
  exact E.hasSum_iff.mpr this

theorem rank_two {t : List ℕ} (h : t.Nodup) (hl : t.length ≤ 2) : ∀ a < t.length, rankIn t (rankIn t a) = a := by
  match t, hl with
  | [], _ => intro a ha; simp at ha
  | [u], _ =>
    intro a ha
    obtain rfl : a = 0 := by simpa using ha
    simp [rankIn]
  | [u, v], _ =>
    intro a ha
    have huv : u ≠ v := by simpa using h
    have ha' : a = 0 ∨ a = 1 := by simp at ha; omega
    rcases lt_or_gt_of_ne huv with hlt | hgt
    · rcases ha' with rfl | rfl <;> simp [rankIn, hlt, not_lt.mpr hlt.le]
    · have : v < u := hgt
      rcases ha' with rfl | rfl <;> simp [rankIn, this, not_lt.mpr this.le]

/-- C37: the one-body and two-body marginals are right for every order of the modes. -/
theorem nBodyMarginals_two {sjunk : ℕ → ℂ} (closeR : ℝ → ℝ → Bool) (setOrder : List ℕ → List ℕ) (hset : AscendingSets setOrder) (s : GState ℝ)
    (hs : s.len = 2 * N) (cutoff : ℕ) (hc : 0 < cutoff) (hc2 : cutoff ≤ 1000) (n : ℕ) (hn : 0 < n) (hnN : n ≤ N)
    (atol : ℝ) (hh : 0 < hbar) (hph : Physical (phase N N s.cov) hbar)
    (hcp : ∀ modes sub, modes.Nodup → reducedState s modes = .ok sub → Checks.isPureCov closeR sub.len sub.len sub.cov hbar atol = true →
      ((2 / hbar) • phase (sub.len / 2) (sub.len / 2) sub.cov).det = 1)
    (htol : ∀ k < N, (s.mu k = 0 ∧ s.mu (N + k) = 0) ∨ (1 / 10 ^ 10) ^ 2 ≤ (s.mu k ^ 2 + s.mu (N + k) ^ 2) / (2 * hbar)) :
    ∃ (ρ : (Fin N → ℕ) → (Fin N → ℕ) → ℂ) (M : Marg), IsFockMatrix N s.mu s.cov hbar ρ ∧
      nBodyMarginals (sqrtTable sjunk) (isClose 0 0) closeR setOrder s s.len s.len cutoff n hbar atol = .ok M ∧
      ∀ t : List ℕ, t ≠ [] → t.Nodup → (∀ m ∈ t, m < N) → t.length ≤ n → t.length ≤ 2 →
        IsMarginal (fun n => (ρ n n).re) t cutoff (M (t.length - 1) t) := by
  obtain ⟨ρ, M, hρ, hM, h⟩ := nBodyMarginals_partial (sjunk := sjunk) closeR setOrder hset s hs cutoff hc hc2 n hn hnN atol hh hph hcp htol
  exact ⟨ρ, M, hρ, hM, fun t hne htn htb htl h2 => h t hne htn htb htl (rank_two htn h2)⟩

/-- C37: exceptions -/
theorem nBodyMarginals_raises (sq : ℕ → ℂ) (close : ℂ → ℂ → Bool) (closeR : ℝ → ℝ → Bool) (setOrder : List ℕ → List ℕ) (s : GState ℝ) (r c cutoff n : ℕ)
    (atol : ℝ) (h : r ≠ s.len ∨ c ≠ s.len ∨ s.len % 2 ≠ 0 ∨ s.len / 2 < n) :
    nBodyMarginals sq close closeR setOrder s r c cutoff n hbar atol = .error .valueError := by
  unfold nBodyMarginals
  split_ifs <;> first | rfl | (exfalso; omega)

/-- a coherent state of three modes, with one photon on average in the mode 0 (`ħ = 2`) -/
noncomputable def cohThree : GState ℝ := { len := 6, mu := fun i => if i = 0 then 2 else 0, cov := (vacuumState 3 (2 : ℝ)).cov }

theorem vacuum_reduction_det (s : GState ℝ) (hs : s.len = 2 * N) (hcov : s.cov = (vacuumState N hbar).cov) (hh : 0 < hbar) (modes : List ℕ) (sub : GState ℝ)
    (hn : modes.Nodup) (hr : reducedState s modes = .ok sub) (hne : modes ≠ []) (hb : ∀ m ∈ modes, m < N) :
    ((2 / hbar) • phase (sub.len / 2) (sub.len / 2) sub.cov).det = 1 := by
  obtain ⟨r, hr', hred⟩ := reducedState_eq N s hs modes hne hb
  obtain rfl : r = sub := Except.ok.inj (hr'.symm.trans hr)
  have hl2 : r.len / 2 = modes.length := by have := hred.len; omega
  rw [hl2]
  have h1 := reduction_submatrix s r modes hb hred
  dsimp only at h1
  rw [h1, hcov, phase_vacuum]
  have hinj : Function.Injective fun a : Fin modes.length => (⟨modes.getD a 0, hb _ (by rw [List.getD_eq_getElem _ _ a.2]; exact List.getElem_mem _)⟩ : Fin N) := by
    intro a b hab
    have h2 := congrArg Fin.val hab
    simp only [List.getD_eq_getElem _ _ a.2, List.getD_eq_getElem _ _ b.2] at h2
    exact Fin.ext ((hn.getElem_inj_iff).mp h2)
  have hinj2 := Sum.map_injective.mpr ⟨hinj, hinj⟩
  have e : ((hbar / 2) • (1 : Matrix (Fin N ⊕ Fin N) (Fin N ⊕ Fin N) ℝ)).submatrix
      (Sum.map (fun a : Fin modes.length => (⟨modes.getD a 0, hb _ (by rw [List.getD_eq_getElem _ _ a.2]; exact List.getElem_mem _)⟩ : Fin N))
        fun a : Fin modes.length => (⟨modes.getD a 0, hb _ (by rw [List.getD_eq_getElem _ _ a.2]; exact List.getElem_mem _)⟩ : Fin N))
      (Sum.map (fun a : Fin modes.length => (⟨modes.getD a 0, hb _ (by rw [List.getD_eq_getElem _ _ a.2]; exact List.getElem_mem _)⟩ : Fin N))
        fun a : Fin modes.length => (⟨modes.getD a 0, hb _ (by rw [List.getD_eq_getElem _ _ a.2]; exact List.getElem_mem _)⟩ : Fin N)) = (hbar / 2) • 1 := by
    ext p q
    simp only [Matrix.submatrix_apply, Matrix.smul_apply, Matrix.one_apply, hinj2.eq_iff]
  rw [e, smul_smul, show 2 / hbar * (hbar / 2) = 1 by field_simp, one_smul, det_one]

theorem cohThree_pure (closeR : ℝ → ℝ → Bool) (atol : ℝ) : ∀ modes sub, modes.Nodup → reducedState cohThree modes = .ok sub →
    Checks.isPureCov closeR sub.len sub.len sub.cov 2 atol = true → ((2 / (2 : ℝ)) • phase (sub.len / 2) (sub.len / 2) sub.cov).det = 1 := by
  intro modes sub hn hr _
  by_cases hne : modes = []
  · subst hne
    exfalso
    unfold reducedState gather at hr
    simp [cohThree, List.range_succ] at hr
  · refine vacuum_reduction_det (N := 3) cohThree rfl rfl (by norm_num) modes sub hn hr hne ?_
    by_contra h
    push Not at h
    have := reducedState_raises 3 cohThree rfl modes h
    rw [this] at hr
    cases hr

theorem cohThree_tol : ∀ k < 3, (cohThree.mu k = 0 ∧ cohThree.mu (3 + k) = 0) ∨ (1 / 10 ^ 10 : ℝ) ^ 2 ≤ (cohThree.mu k ^ 2 + cohThree.mu (3 + k) ^ 2) / (2 * 2) := by
  intro k hk
  by_cases h0 : k = 0
  · subst h0
    right
    simp only [cohThree]
    norm_num
  · left
    simp only [cohThree]
    exact ⟨if_neg h0, if_neg (by omega)⟩

/-- C37: without the hypothesis on the order the property fails: for a coherent state of three modes the array stored at the modes `(1, 2, 0)` is not their marginal
distribution. -/
theorem nBodyMarginals_cyclic_false {sjunk : ℕ → ℂ} (closeR : ℝ → ℝ → Bool) (setOrder : List ℕ → List ℕ) (hset : AscendingSets setOrder)
    (cutoff : ℕ) (hc : 1 < cutoff) (hc2 : cutoff ≤ 1000) (atol : ℝ) :
    ∃ (ρ : (Fin 3 → ℕ) → (Fin 3 → ℕ) → ℂ) (M : Marg), IsFockMatrix 3 cohThree.mu cohThree.cov 2 ρ ∧
      nBodyMarginals (sqrtTable sjunk) (isClose 0 0) closeR setOrder cohThree 6 6 cutoff 3 2 atol = .ok M ∧
      ¬ IsMarginal (fun n => (ρ n n).re) [1, 2, 0] cutoff (M 2 [1, 2, 0]) := by
  obtain ⟨ρ, M, hρ, hM, h⟩ := nBodyMarginals_exact (sjunk := sjunk) (N := 3) (hbar := 2) closeR setOrder hset cohThree rfl cutoff (by omega) hc2 3 (by norm_num) le_rfl
    atol (by norm_num) (physical_vacuum 3 2 (by norm_num)).1 (cohThree_pure closeR atol) cohThree_tol
  refine ⟨ρ, M, hρ, hM, fun hmar => ?_⟩
  have hcoh := coherent_fock 3 cohThree.mu 2 (by norm_num)
  obtain rfl := fockMatrix_unique hρ hcoh
  set β := cohAlpha 3 cohThree.mu 2 with hβ
  have hβ0 : β 0 = 1 := by
    have h4 : Real.sqrt (2 * 2) = 2 := by rw [Real.sqrt_mul_self (by norm_num)]
    rw [hβ]
    simp [cohAlpha, cohThree, h4]
  have hβ1 : β 1 = 0 := by
    rw [hβ]
    simp [cohAlpha, cohThree]
  let x : ℕ → ℕ := fun a => if a = 2 then 1 else 0
  have hx : ∀ a < [1, 2, 0].length, x a < cutoff := by
    intro a _
    simp only [x]
    split_ifs <;> omega
  have h1 := h [1, 2, 0] (by simp) (by simp) (by simp) (by simp) x hx
  have h2 := hmar x hx
  have hz : ∀ n : {n : Fin 3 → ℕ // ∀ (k : Fin 3) (a : ℕ), a < [1, 2, 0].length → ([1, 2, 0] : List ℕ).getD a 0 = (k : ℕ) → n k = x (rankIn [1, 2, 0] (rankIn [1, 2, 0] a))},
      ((Real.exp (-∑ k, ‖β k‖ ^ 2) : ℝ) * (starRingEnd ℂ) (cohAmp β n) * cohAmp β n : ℂ).re = 0 := by
    intro n
    have hn : n.1 1 = 1 := by
      have := n.2 1 0 (by simp) (by simp)
      rw [this]
      simp [rankIn, x]
    have : cohAmp β n.1 = 0 := by
      refine Finset.prod_eq_zero (Finset.mem_univ 1) ?_
      rw [hn, hβ1]
      simp
    rw [this, mul_zero, Complex.zero_re]
  have h3 : M ([1, 2, 0].length - 1) [1, 2, 0] ((List.range [1, 2, 0].length).map x) = 0 := by
    have := h1.unique (hs_eq hasSum_zero hz rfl)
    exact this
  have h4 : M 2 [1, 2, 0] ((List.range [1, 2, 0].length).map x) = 0 := h3
  rw [h4] at h2
  let n0 : Fin 3 → ℕ := fun k => if k = 0 then 1 else 0
  have hn0 : ∀ (k : Fin 3) (a : ℕ), a < [1, 2, 0].length → ([1, 2, 0] : List ℕ).getD a 0 = (k : ℕ) → n0 k = x a := by
    intro k a ha hk
    have ha' : a = 0 ∨ a = 1 ∨ a = 2 := by simp at ha; omega
    rcases ha' with rfl | rfl | rfl
    · obtain rfl : k = 1 := Fin.ext (by simpa using hk.symm)
      rfl
    · obtain rfl : k = 2 := Fin.ext (by simpa using hk.symm)
      rfl
    · obtain rfl : k = 0 := Fin.ext (by simpa using hk.symm)
      rfl
  have hpsd := fock_isPsd (by norm_num) (physical_vacuum 3 2 (by norm_num)).1 hcoh
  have h5 := le_hasSum h2 ⟨n0, hn0⟩ fun j _ => (hpsd.diag j.1).1
  have hamp : cohAmp β n0 = 1 := by
    unfold cohAmp
    rw [Fin.prod_univ_three]
    simp [n0, hβ0]
  have h6 : ((Real.exp (-∑ k, ‖β k‖ ^ 2) : ℝ) * (starRingEnd ℂ) (cohAmp β n0) * cohAmp β n0 : ℂ).re = Real.exp (-∑ k, ‖β k‖ ^ 2) := by
    rw [hamp, map_one, mul_one, mul_one, Complex.ofReal_re]
  have h7 : ((Real.exp (-∑ k, ‖β k‖ ^ 2) : ℝ) * (starRingEnd ℂ) (cohAmp β n0) * cohAmp β n0 : ℂ).re ≤ 0 := h5
  rw [h6] at h7
  exact absurd h7 (not_le.mpr (Real.exp_pos _))

/-- ascending sets exist, and the hypotheses of the theorems hold for the coherent state of three modes -/
example {sjunk : ℕ → ℂ} (closeR : ℝ → ℝ → Bool) (atol : ℝ) : ∃ (ρ : (Fin 3 → ℕ) → (Fin 3 → ℕ) → ℂ) (M : Marg), IsFockMatrix 3 cohThree.mu cohThree.cov 2 ρ ∧
    nBodyMarginals (sqrtTable sjunk) (isClose 0 0) closeR (fun l => srt (fromKeys l)) cohThree 6 6 5 2 2 atol = .ok M ∧
    IsMarginal (fun n => (ρ n n).re) [2, 0] 5 (M 1 [2, 0]) := by
  have hset : AscendingSets fun l => srt (fromKeys l) := fun l => ⟨srt_lt (fromKeys_nodup l), fun x => by rw [(srt_perm _).mem_iff, mem_fromKeys]⟩
  obtain ⟨ρ, M, h1, h2, h3⟩ := nBodyMarginals_two (sjunk := sjunk) (N := 3) closeR _ hset cohThree rfl 5 (by norm_num) (by norm_num) 2 (by norm_num) (by norm_num) atol
    (by norm_num) (physical_vacuum 3 2 (by norm_num)).1 (cohThree_pure closeR atol) cohThree_tol
  exact ⟨ρ, M, h1, h2, h3 [2, 0] (by simp) (by simp) (by simp) (by simp) (by simp)⟩

end Verif.Props
