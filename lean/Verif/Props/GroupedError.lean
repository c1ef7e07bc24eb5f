/-
**C108** The errors returned by `grouped_click_probabilities` are the standard deviations of the averages of the groups.
-/
import Verif.Props.GroupedClicks

set_option linter.style.longLine false

namespace Verif.Props
open Verif.Model Verif.Model.Disting Verif.Model.Grouped

/-- the average of a quantity over group number `g` of a list of samples, `spg` consecutive samples forming a group -/
noncomputable def groupAverage {α : Type} (phi : α → ℝ) (spg : ℕ) (ws : List α) (g : ℕ) : ℝ := (((ws.drop (g * spg)).take spg).map phi).sum / spg

/-- the sums the loop has accumulated, in terms of the averages over the complete groups -/
theorem accLoop_groups {α : Type} (phi : α → ℕ → ℝ) (spg : ℕ) (h : 0 < spg) (ws : List α) (p : ℕ) :
    (accLoop phi spg ws 0 acc0).bcc p = ∑ g ∈ Finset.range (ws.length / spg), groupAverage (fun w => phi w p) spg ws g ∧
    (accLoop phi spg ws 0 acc0).qcc p = ∑ g ∈ Finset.range (ws.length / spg), groupAverage (fun w => phi w p) spg ws g ^ 2 := by
  induction ws using List.reverseRecOn with
  | nil => simp [accLoop, acc0]
  | append_singleton ws w ih =>
    obtain ⟨ih1, ih2⟩ := ih
    obtain ⟨h1, h2, -⟩ := accLoop_spec phi spg h ws p
    -- the averages of the groups that were complete before do not change
    have hold : ∀ g ∈ Finset.range (ws.length / spg), groupAverage (fun w => phi w p) spg (ws ++ [w]) g = groupAverage (fun w => phi w p) spg ws g := fun g hg => by
      have hg' : (g + 1) * spg ≤ ws.length := (Nat.mul_le_mul_right _ (Finset.mem_range.mp hg)).trans (Nat.div_mul_le_self _ _)
      rw [Nat.add_mul, one_mul] at hg'
      rw [groupAverage, groupAverage, List.drop_append_of_le_length (by omega), List.take_append_of_le_length (by rw [List.length_drop]; omega)]
    rw [accLoop_snoc, zero_add, List.length_append, List.length_singleton]
    unfold accStep
    by_cases hm : (ws.length + 1) % spg = 0
    · rw [if_pos hm]
      have hd : (ws.length + 1) / spg = ws.length / spg + 1 := by
        rw [Nat.succ_div, if_pos (Nat.dvd_of_mod_eq_zero hm)]
      have e : spg * ((ws.length + 1) / spg) = ws.length + 1 := Nat.mul_div_cancel' (Nat.dvd_of_mod_eq_zero hm)
      have hnew : groupAverage (fun w => phi w p) spg (ws ++ [w]) (ws.length / spg) = ((accLoop phi spg ws 0 acc0).acc p + phi w p - (accLoop phi spg ws 0 acc0).fix p) / spg := by
        rw [groupAverage]
        congr 1
        rw [hd, Nat.mul_add, mul_one] at e
        rw [List.take_of_length_le (by rw [List.length_drop, List.length_append, List.length_singleton, Nat.mul_comm]; omega), h1, h2]
        rw [mul_comm (ws.length / spg) spg, List.drop_append_of_le_length (Nat.mul_div_le _ _), List.map_append, List.sum_append]
        have := congrArg (fun l => (l.map fun w => phi w p).sum) (List.take_append_drop (spg * (ws.length / spg)) ws)
        simp only [List.map_append, List.sum_append] at this
        simp only [List.map_cons, List.map_nil, List.sum_cons, List.sum_nil]
        linarith
      rw [hd, Finset.sum_range_succ, Finset.sum_range_succ, hnew, Finset.sum_congr rfl hold, Finset.sum_congr rfl fun g hg => congrArg (· ^ 2) (hold g hg)]
      exact ⟨by rw [← ih1], by rw [← ih2]⟩
    · rw [if_neg hm]
      have e : (ws.length + 1) / spg = ws.length / spg := by
        rw [Nat.succ_div, if_neg (fun hd => hm (Nat.mod_eq_zero_of_dvd hd)), add_zero]
      rw [e, Finset.sum_congr rfl hold, Finset.sum_congr rfl fun g hg => congrArg (· ^ 2) (hold g hg)]
      exact ⟨ih1, ih2⟩

/-- mean of the squares minus square of the mean -/
theorem variance_identity (G : ℕ) (hG : 0 < G) (a : ℕ → ℝ) :
    (∑ g ∈ Finset.range G, a g ^ 2) / G - ((∑ g ∈ Finset.range G, a g) / G) ^ 2 = (∑ g ∈ Finset.range G, (a g - (∑ g ∈ Finset.range G, a g) / G) ^ 2) / G := by
  have hG' : (G : ℝ) ≠ 0 := by positivity
  set m := (∑ g ∈ Finset.range G, a g) / G with hm
  have hs : ∑ g ∈ Finset.range G, a g = m * G := by rw [hm]; field_simp
  have e : ∀ g, (a g - m) ^ 2 = a g ^ 2 - 2 * m * a g + m ^ 2 := fun g => by ring
  simp only [e]
  rw [Finset.sum_add_distrib, Finset.sum_sub_distrib, ← Finset.mul_sum, hs, Finset.sum_const, Finset.card_range, nsmul_eq_mul]
  field_simp
  ring

/-- **C108** In every run in which the number of groups divides the number of samples the first result is the mean of the averages of the groups and the second one their standard deviation. -/
theorem groupedRun_error (N n : ℕ) (phn chn : ℕ → ℝ) (T : ℕ → ℕ → ℂ) (G spg : ℕ) (hG : 0 < G) (hs : 0 < spg) (ws : List ((ℕ → ℝ) × (ℕ → ℝ))) (hw : ws.length = spg * G) (p : ℕ) :
    let avg := groupAverage (fun w => contribution N n phn chn T w p) spg ws
    let r := groupedRun N n phn chn T G ws
    r.1 p = (∑ g ∈ Finset.range G, avg g) / G ∧ r.2 p = Real.sqrt ((∑ g ∈ Finset.range G, (avg g - r.1 p) ^ 2) / G) := by
  intro avg r
  have e1 : ws.length / G = spg := by rw [hw, Nat.mul_div_cancel _ hG]
  have e2 : ws.length / spg = G := by rw [hw, Nat.mul_div_cancel_left _ hs]
  obtain ⟨h1, h2⟩ := accLoop_groups (contribution N n phn chn T) spg hs ws p
  rw [e2] at h1 h2
  have hr : r.1 p = (∑ g ∈ Finset.range G, avg g) / G := by
    change (accLoop (contribution N n phn chn T) (ws.length / G) ws 0 acc0).bcc p / G = _
    rw [e1, h1]
  refine ⟨hr, ?_⟩
  change Real.sqrt ((accLoop (contribution N n phn chn T) (ws.length / G) ws 0 acc0).qcc p / G - ((accLoop (contribution N n phn chn T) (ws.length / G) ws 0 acc0).bcc p / G) ^ 2) = _
  rw [e1, h1, h2, hr, variance_identity G hG]

/-- **C108** in such a run the square root is taken of a number that is not negative -/
theorem grouped_radicand (N n : ℕ) (phn chn : ℕ → ℝ) (T : ℕ → ℕ → ℂ) (G spg : ℕ) (hG : 0 < G) (hs : 0 < spg) (ws : List ((ℕ → ℝ) × (ℕ → ℝ))) (hw : ws.length = spg * G) (p : ℕ) :
    let s := accLoop (contribution N n phn chn T) (ws.length / G) ws 0 acc0
    0 ≤ s.qcc p / G - (s.bcc p / G) ^ 2 := by
  intro s
  have e1 : ws.length / G = spg := by rw [hw, Nat.mul_div_cancel _ hG]
  have e2 : ws.length / spg = G := by rw [hw, Nat.mul_div_cancel_left _ hs]
  obtain ⟨h1, h2⟩ := accLoop_groups (contribution N n phn chn T) spg hs ws p
  rw [e2] at h1 h2
  have : s = accLoop (contribution N n phn chn T) spg ws 0 acc0 := by rw [← e1]
  rw [this, h1, h2, variance_identity G hG]
  positivity

/-- **C108** the returned error is zero exactly when the averages of all groups are the returned probability -/
theorem groupedRun_error_zero (N n : ℕ) (phn chn : ℕ → ℝ) (T : ℕ → ℕ → ℂ) (G spg : ℕ) (hG : 0 < G) (hs : 0 < spg) (ws : List ((ℕ → ℝ) × (ℕ → ℝ))) (hw : ws.length = spg * G) (p : ℕ) :
    (groupedRun N n phn chn T G ws).2 p = 0 ↔
      ∀ g < G, groupAverage (fun w => contribution N n phn chn T w p) spg ws g = (groupedRun N n phn chn T G ws).1 p := by
  have hG' : (0 : ℝ) < G := by exact_mod_cast hG
  have h := (groupedRun_error N n phn chn T G spg hG hs ws hw p).2
  rw [h, Real.sqrt_eq_zero (by positivity), div_eq_zero_iff, or_iff_left hG'.ne', Finset.sum_eq_zero_iff_of_nonneg fun _ _ => sq_nonneg _]
  simp only [Finset.mem_range, pow_eq_zero_iff (two_ne_zero), sub_eq_zero]

/-- without input light every sample contributes a certain `no clicks` -/
theorem contribution_vacuum (N n : ℕ) (T : ℕ → ℕ → ℂ) (w : (ℕ → ℝ) × (ℕ → ℝ)) : contribution N n (fun _ => 0) (fun _ => 0) T w 0 = 1 := by
  rw [contribution_eq N n _ _ T w 0 (Nat.zero_le _) _ _ rfl rfl]
  simp [patternWeight, alphaAt]

/-- **C108** If the number of groups does not divide the number of samples, the square root may be taken of a negative number (`nan` is returned): three samples of the vacuum in two groups. -/
theorem grouped_radicand_negative (N n : ℕ) (T : ℕ → ℕ → ℂ) (ws : List ((ℕ → ℝ) × (ℕ → ℝ))) (hw : ws.length = 3) :
    let s := accLoop (contribution N n (fun _ => 0) (fun _ => 0) T) (ws.length / 2) ws 0 acc0
    s.qcc 0 / (2 : ℕ) - (s.bcc 0 / (2 : ℕ)) ^ 2 = -(3 / 4) := by
  match ws, hw with
  | [a, b, c], _ =>
    have h := contribution_vacuum N n T
    simp only [List.length_cons, List.length_nil, accLoop, accStep, acc0]
    norm_num
    rw [h a, h b, h c]
    norm_num

/-- the hypotheses are met: six samples in three groups -/
example (a b : (ℕ → ℝ) × (ℕ → ℝ)) (p : ℕ) :
    (groupedRun 2 2 (fun _ => 1) (fun _ => 1) (fun i j => if i = j then 1 else 0) 3 [a, b, b, a, a, b]).2 p = 0 := by
  rw [groupedRun_error_zero 2 2 _ _ _ 3 2 (by norm_num) (by norm_num) _ rfl]
  intro g hg
  rw [(groupedRun_error 2 2 _ _ _ 3 2 (by norm_num) (by norm_num) _ rfl p).1]
  interval_cases g <;> simp [groupAverage, Finset.sum_range_succ] <;> ring

end Verif.Props
