import Mathlib.Tactic.Linarith
import Mathlib.Tactic.NormNum
import Mathlib.Tactic.FieldSimp
import Mathlib.Algebra.BigOperators.Field
import Verif.Model.Tools
import Verif.Props.Fouling
import Verif.Props.Interp

/-! Properties C58 to C63: full-scale tools. -/
set_option autoImplicit false
namespace WTM

/-! ### C58 -/

theorem succ_div_mod {per : ℕ} (hp : 0 < per) (m : ℕ) :
    (m % per + 1 = per → (m + 1) % per = 0 ∧ (m + 1) / per = m / per + 1) ∧
    (m % per + 1 ≠ per → (m + 1) % per = m % per + 1 ∧ (m + 1) / per = m / per) := by
  have hm := Nat.div_add_mod m per
  have hlt := Nat.mod_lt m hp
  constructor
  · intro h
    have e : m + 1 = per * (m / per + 1) := by rw [Nat.mul_add, Nat.mul_one]; omega
    rw [e]
    exact ⟨Nat.mul_mod_right _ _, Nat.mul_div_cancel_left _ hp⟩
  · intro h
    have e : m + 1 = (m % per + 1) + per * (m / per) := by omega
    have hl : m % per + 1 < per := by omega
    constructor
    · rw [e, Nat.add_mul_mod_self_left, Nat.mod_eq_of_lt hl]
    · conv_lhs => rw [e]
      rw [Nat.add_mul_div_left _ _ hp, Nat.div_eq_of_lt hl, Nat.zero_add]

theorem bedStep_iter {per : ℕ} (hp : 0 < per) (m : ℕ) :
    (bedStep per)^[m] ([], 0, 1) = ((List.range m).map (fun k => k / per + 1), m % per, m / per + 1) := by
  induction m with
  | zero => simp
  | succ m ih =>
    rw [Function.iterate_succ_apply', ih]
    have hlt := Nat.mod_lt m hp
    obtain ⟨h1, h2⟩ := succ_div_mod hp m
    unfold bedStep
    simp only [if_pos hlt.le, List.range_succ, List.map_append, List.map_cons, List.map_nil]
    by_cases h : m % per + 1 = per
    · rw [if_pos h, (h1 h).1, (h1 h).2]
    · rw [if_neg h, (h2 h).1, (h2 h).2]

theorem foldl_max_groups {per : ℕ} (m : ℕ) :
    ((List.range (m + 1)).map (fun k => k / per + 1)).foldl max 0 = m / per + 1 := by
  induction m with
  | zero => simp
  | succ m ih =>
    rw [List.range_succ, List.map_append, List.foldl_append, ih]
    simp only [List.map_cons, List.map_nil, List.foldl_cons, List.foldl_nil]
    exact max_eq_right (Nat.succ_le_succ (Nat.div_le_div_right (Nat.le_succ m)))

theorem bedGroups_eq {total per : ℕ} (hp : 0 < per) (ht : 0 < total) :
    bedGroups total per = (total - 1) / per + 1 := by
  unfold bedGroups bedInfo
  rw [bedStep_iter hp]
  obtain ⟨m, rfl⟩ : ∃ m, total = m + 1 := ⟨total - 1, by omega⟩
  exact foldl_max_groups m

theorem groups_of_mod {total per : ℕ} (hp : 0 < per) (ht : 0 < total) :
    (total - 1) / per + 1 = if total % per = 0 then total / per else total / per + 1 := by
  obtain ⟨m, rfl⟩ : ∃ m, total = m + 1 := ⟨total - 1, by omega⟩
  obtain ⟨h1, h2⟩ := succ_div_mod hp m
  simp only [Nat.add_sub_cancel]
  by_cases h : m % per + 1 = per
  · rw [if_pos (h1 h).1, (h1 h).2]
  · rw [if_neg (by rw [(h2 h).1]; omega), (h2 h).2]

/-- C58. The weights are nonnegative. -/
theorem c58_nonneg (total per : ℕ) : ∀ w ∈ bedWeights total per, 0 ≤ w := by
  intro w hw
  unfold bedWeights at hw
  split at hw
  · obtain ⟨-, rfl⟩ := List.mem_replicate.1 hw
    positivity
  · rcases List.mem_cons.1 hw with rfl | hw
    · positivity
    · obtain ⟨-, rfl⟩ := List.mem_replicate.1 hw
      positivity

/-- C58. They sum to one. -/
theorem c58_sum {total per : ℕ} (ht : 0 < total) : (bedWeights total per).sum = 1 := by
  have h0 : (total : ℝ) ≠ 0 := by positivity
  have hm : ((per * (total / per) + total % per : ℕ) : ℝ) = total := by rw [Nat.div_add_mod]
  push_cast at hm
  unfold bedWeights
  split
  · rename_i h
    rw [h] at hm
    rw [List.sum_replicate, nsmul_eq_mul, ← mul_div_assoc, div_eq_one_iff_eq h0]
    push_cast at hm
    linarith
  · rw [List.sum_cons, List.sum_replicate, nsmul_eq_mul, ← mul_div_assoc, ← add_div, div_eq_one_iff_eq h0]
    linarith

/-- C58. There is one weight for every age group of the blend, `⌈total / per⌉` of them. -/
theorem c58_groups {total per : ℕ} (hp : 0 < per) (ht : 0 < total) :
    (bedWeights total per).length = bedGroups total per ∧
    (bedGroups total per - 1) * per < total ∧ total ≤ bedGroups total per * per := by
  have hg := bedGroups_eq hp ht
  refine ⟨?_, ?_, ?_⟩
  · rw [hg, groups_of_mod hp ht]
    unfold bedWeights
    split <;> simp
  · rw [hg]
    have := Nat.div_mul_le_self (total - 1) per
    simp only [Nat.add_sub_cancel]
    omega
  · rw [hg]
    have := Nat.lt_div_mul_add (a := total - 1) hp
    rw [Nat.add_mul, Nat.one_mul]
    omega

/-- The hypotheses are met: eight beds, three at a time. -/
example : bedGroups 8 3 = 3 ∧ (bedWeights 8 3).length = 3 := by
  have := c58_groups (total := 8) (per := 3) (by norm_num) (by norm_num)
  rw [bedGroups_eq (by norm_num) (by norm_num)] at this ⊢
  exact ⟨by norm_num, this.1⟩

/-! ### C59 -/

/-- Age group of a bed: `total` beds, replaced `per` at a time, the odd ones newest. -/
def Spec.groupOf (total per k : ℕ) : ℕ :=
  if total % per = 0 then k / per else if k < total % per then 0 else (k - total % per) / per + 1

/-- Blended concentration on day `t` of a cycle of `i` days: the mean over the beds, one in group `j` having been
in use for `j * i + t` days. -/
noncomputable def Spec.blended (total per : ℕ) (f : ℕ → ℝ) (i t : ℕ) : ℝ :=
  (∑ k ∈ Finset.range total, f (Spec.groupOf total per k * i + t)) / total

theorem sum_groups {per : ℕ} (hp : 0 < per) (g : ℕ → ℝ) (q : ℕ) :
    ∑ k ∈ Finset.range (per * q), g (k / per) = per * ∑ j ∈ Finset.range q, g j := by
  induction q with
  | zero => simp
  | succ q ih =>
    rw [Nat.mul_succ, Finset.sum_range_add, ih, Finset.sum_range_succ, mul_add]
    congr 1
    rw [Finset.sum_congr rfl (g := fun _ => g q)]
    · simp
    · intro x hx
      rw [Finset.mem_range] at hx
      rw [add_comm, Nat.add_mul_div_left _ _ hp, Nat.div_eq_of_lt hx, Nat.zero_add]

theorem getD_replicate {q j : ℕ} (a : ℝ) (h : j < q) : (List.replicate q a).getD j 0 = a := by
  simp [List.getD_eq_getElem?_getD, h]

theorem sum_list_range (g : ℕ → ℝ) (m : ℕ) : ((List.range m).map g).sum = ∑ j ∈ Finset.range m, g j := rfl

theorem weights_blend {total per : ℕ} (hp : 0 < per) (ht : 0 < total) (g : ℕ → ℝ) :
    ((List.range (bedGroups total per)).map fun j => (bedWeights total per).getD j 0 * g j).sum =
      (∑ k ∈ Finset.range total, g (Spec.groupOf total per k)) / total := by
  rw [sum_list_range, bedGroups_eq hp ht, groups_of_mod hp ht]
  have hdm := Nat.div_add_mod total per
  unfold Spec.groupOf bedWeights
  by_cases h : total % per = 0
  · simp only [if_pos h]
    have e : total = per * (total / per) := by omega
    have hs := sum_groups hp g (total / per)
    rw [← e] at hs
    rw [hs, mul_div_right_comm, Finset.mul_sum]
    refine Finset.sum_congr rfl fun j hj => ?_
    rw [getD_replicate _ (Finset.mem_range.1 hj)]
  · simp only [if_neg h]
    have e : total = total % per + per * (total / per) := by omega
    have hs : ∑ k ∈ Finset.range total, g (if k < total % per then 0 else (k - total % per) / per + 1) =
        (total % per : ℕ) * g 0 + per * ∑ j ∈ Finset.range (total / per), g (j + 1) := by
      generalize total % per = r at *
      generalize total / per = q at *
      rw [e, Finset.sum_range_add]
      congr 1
      · rw [Finset.sum_congr rfl (g := fun _ => g 0)]
        · simp
        · intro x hx
          rw [if_pos (Finset.mem_range.1 hx)]
      · rw [← sum_groups hp (fun j => g (j + 1))]
        refine Finset.sum_congr rfl fun x _ => ?_
        rw [if_neg (by omega), Nat.add_sub_cancel_left]
    rw [hs, Finset.sum_range_succ', add_comm, add_div, Finset.mul_sum, Finset.sum_div]
    congr 1
    · simp only [List.getD_cons_zero]
      ring
    · refine Finset.sum_congr rfl fun j hj => ?_
      rw [List.getD_cons_succ, getD_replicate _ (Finset.mem_range.1 hj)]
      ring

theorem sliceLen_full {n i j groups : ℕ} (hj : j < groups) (h : groups * i ≤ n) : sliceLen n i j = i := by
  unfold sliceLen
  have h1 : (j + 1) * i ≤ groups * i := Nat.mul_le_mul_right i hj
  have h2 : (j + 1) * i = j * i + i := by ring
  rw [min_eq_left (h1.trans h), min_eq_left (by omega)]
  omega

/-- When the days suffice, the cycle computed is the blended one. -/
theorem blend_eq {total per n i : ℕ} (hp : 0 < per) (ht : 0 < total) (f : ℕ → ℝ)
    (h : bedGroups total per * i ≤ n) :
    blend (bedWeights total per) (bedGroups total per) n f i =
      .ok ((List.range i).map fun t => Spec.blended total per f i t) := by
  have hl := (c58_groups hp ht).1
  unfold blend
  rw [if_neg (by omega), if_pos]
  · congr 1
    refine List.map_congr_left fun t _ => ?_
    rw [Spec.blended, ← weights_blend hp ht (fun j => f (j * i + t))]
    congr 1
    refine List.map_congr_left fun j hj => ?_
    rw [if_pos (sliceLen_full (List.mem_range.1 hj) h)]
  · rw [List.all_eq_true]
    intro j hj
    simp [sliceLen_full (List.mem_range.1 hj) h]

/-- The interval `i` meets the target on every day of its cycle. -/
def Spec.Meets (total per : ℕ) (f : ℕ → ℝ) (target : ℝ) (i : ℕ) : Prop :=
  ∀ t < i, Spec.blended total per f i t ≤ target

theorem rotLoop_spec {w : List ℝ} {groups n maxDays : ℕ} {f : ℕ → ℝ} {target : ℝ} {B : ℕ → List ℝ} :
    ∀ (k s : ℕ) (best : ℕ × List ℝ), (∀ i, s ≤ i → i < s + k → blend w groups n f i = .ok (B i)) →
      (rotLoop w groups n maxDays f target (List.range' s k) best = best ∧
        (k = 0 ∨ ¬ ∀ x ∈ B s, x ≤ target)) ∨
      ∃ m < k, rotLoop w groups n maxDays f target (List.range' s k) best = (s + m, B (s + m)) ∧
        (∀ j ≤ m, ∀ x ∈ B (s + j), x ≤ target) ∧ (m + 1 = k ∨ ¬ ∀ x ∈ B (s + m + 1), x ≤ target)
  | 0, s, best, _ => .inl ⟨rfl, .inl rfl⟩
  | k + 1, s, best, hB => by
    rw [List.range'_succ]
    unfold rotLoop
    rw [hB s le_rfl (by omega)]
    simp only
    by_cases h : ∀ x ∈ B s, x ≤ target
    · rw [if_pos h]
      right
      rcases rotLoop_spec k (s + 1) (s, B s) (fun i h1 h2 => hB i (by omega) (by omega)) with
        ⟨e, h'⟩ | ⟨m, hm, e, h1, h2⟩
      · refine ⟨0, by omega, e, fun j hj => ?_, ?_⟩
        · obtain rfl : j = 0 := by omega
          exact h
        · rcases h' with rfl | h'
          · exact .inl rfl
          · exact .inr h'
      · refine ⟨m + 1, by omega, ?_, fun j hj => ?_, ?_⟩
        · rw [e]
          simp only [Nat.add_assoc, Nat.add_comm 1]
        · rcases Nat.eq_zero_or_pos j with rfl | hj0
          · exact h
          · have := h1 (j - 1) (by omega)
            rwa [show s + 1 + (j - 1) = s + j by omega] at this
        · rcases h2 with rfl | h2
          · exact .inl rfl
          · right
            rwa [show s + (m + 1) + 1 = s + 1 + m + 1 by omega]
    · rw [if_neg h]
      exact .inl ⟨rfl, .inr h⟩

theorem interpExtrap_last {a b : ℝ × ℝ} {t : ℝ} : ∀ {l : List (ℝ × ℝ)}, Spec.Increasing (l ++ [a, b]) → a.1 < t →
    interpExtrap (l ++ [a, b]) t = a.2 + (b.2 - a.2) / (b.1 - a.1) * (t - a.1)
  | [], _, _ => rfl
  | [c], _, h => by
    simp only [List.cons_append, List.nil_append]
    rw [interpExtrap, if_neg (by linarith)]
    rfl
  | c :: d :: l, hinc, h => by
    have hinc' : Spec.Increasing (d :: l ++ [a, b]) := (List.pairwise_cons.1 hinc).2
    have hd : d.1 < a.1 := (List.pairwise_cons.1 hinc').1 a (by simp)
    have ih := interpExtrap_last hinc' h
    have e : ∃ x xs, l ++ [a, b] = x :: xs := by
      cases l with
      | nil => exact ⟨_, _, rfl⟩
      | cons x l => exact ⟨_, _, rfl⟩
    obtain ⟨x, xs, e⟩ := e
    simp only [List.cons_append, e] at ih ⊢
    rw [interpExtrap, if_neg (by linarith)]
    exact ih

/-- Total concentration of a day: negative values count as zero. -/
noncomputable def Spec.total (curves : List (ℕ → ℝ)) (day : ℕ) : ℝ :=
  (curves.map fun f => if f day < 0 then 0 else f day).sum

theorem summedDaily_eq (curves : List (ℕ → ℝ)) (day : ℕ) : summedDaily curves day = Spec.total curves day := by
  unfold summedDaily Spec.total
  congr 1
  refine List.map_congr_left fun f _ => ?_
  split
  · rename_i h; exact max_eq_left h.le
  · rename_i h; exact max_eq_right (not_lt.1 h)

/-- C59, the curve the beds follow: the total concentration of the day up to the last simulated day, its last slope
after that. -/
theorem c59_curve {maxDays : ℕ} (hm : 0 < maxDays) (curves : List (ℕ → ℝ)) (day : ℕ) :
    summedExt maxDays curves day = if day ≤ maxDays then Spec.total curves day
      else Spec.total curves maxDays +
        (Spec.total curves maxDays - Spec.total curves (maxDays - 1)) * ((day : ℝ) - maxDays) := by
  have hinc : Spec.Increasing ((List.range (maxDays + 1)).map fun k : ℕ => ((k : ℝ), summedDaily curves k)) := by
    unfold Spec.Increasing
    rw [List.pairwise_map]
    refine List.pairwise_lt_range.imp ?_
    intro a b h
    exact Nat.cast_lt.2 h
  have hsplit : ∀ k < maxDays, ∃ r, (List.range (maxDays + 1)).map (fun k : ℕ => ((k : ℝ), summedDaily curves k)) =
      (List.range k).map (fun k : ℕ => ((k : ℝ), summedDaily curves k)) ++
        ((k : ℝ), summedDaily curves k) :: (((k + 1 : ℕ) : ℝ), summedDaily curves (k + 1)) :: r := by
    intro k hk
    have e : List.range (maxDays + 1) = List.range k ++ k :: (k + 1) :: List.range' (k + 2) (maxDays - 1 - k) := by
      have e1 : k :: (k + 1) :: List.range' (k + 2) (maxDays - 1 - k) = List.range' (0 + k) (maxDays - 1 - k + 1 + 1) := by
        rw [List.range'_succ, List.range'_succ, Nat.zero_add]
      rw [e1, List.range_eq_range', List.range_eq_range', List.range'_append_1]
      congr 1
      omega
    exact ⟨(List.range' (k + 2) (maxDays - 1 - k)).map _, by rw [e, List.map_append]; rfl⟩
  unfold summedExt
  split
  · rename_i hle
    rw [← summedDaily_eq]
    rcases Nat.lt_or_ge day maxDays with h | h
    · obtain ⟨r, hr⟩ := hsplit day h
      rw [interpExtrap_eq hinc ⟨_, r, hr⟩ le_rfl (by push_cast; linarith)]
      ring
    · obtain rfl : day = maxDays := le_antisymm hle h
      obtain ⟨r, hr⟩ := hsplit (day - 1) (by omega)
      have hd : ((day - 1 + 1 : ℕ) : ℝ) = day := by congr 1; omega
      have hd1 : ((day - 1 : ℕ) : ℝ) = day - 1 := by rw [← hd]; push_cast; ring
      rw [Nat.sub_add_cancel hm] at hr
      rw [interpExtrap_eq hinc ⟨_, r, hr⟩ (by simp only [hd1]; linarith) (by simp), hd1]
      simp
  · rename_i hgt
    rw [← summedDaily_eq, ← summedDaily_eq]
    have hd1 : ((maxDays - 1 : ℕ) : ℝ) = maxDays - 1 := by
      rw [Nat.cast_sub hm]; norm_num
    have e : (List.range (maxDays + 1)).map (fun k : ℕ => ((k : ℝ), summedDaily curves k)) =
        (List.range (maxDays - 1)).map (fun k : ℕ => ((k : ℝ), summedDaily curves k)) ++
          [(((maxDays - 1 : ℕ) : ℝ), summedDaily curves (maxDays - 1)), ((maxDays : ℝ), summedDaily curves maxDays)] := by
      have : List.range (maxDays + 1) = List.range (maxDays - 1) ++ [maxDays - 1, maxDays] := by
        obtain ⟨n, rfl⟩ : ∃ n, maxDays = n + 1 := ⟨maxDays - 1, by omega⟩
        rw [List.range_succ, List.range_succ]
        simp
      rw [this, List.map_append]
      rfl
    have hlt : (maxDays : ℝ) < day := by exact_mod_cast not_le.1 hgt
    rw [e] at hinc ⊢
    rw [interpExtrap_last hinc (by rw [hd1]; linarith), hd1]
    have : (maxDays : ℝ) - (maxDays - 1) = 1 := by ring
    simp only [this]
    ring

/-- The full claim: the returned interval meets the target, and one day more does not (if it was looked at). -/
def C59 : Prop :=
  ∀ (total per maxDays : ℕ) (curves : List (ℕ → ℝ)) (target : ℝ), 0 < per → per ≤ total → 2 ≤ maxDays →
    let v := (predictFullScale total per maxDays curves target).1
    Spec.Meets total per (summedExt maxDays curves) target v ∧
      (v + 1 < maxDays → ¬ Spec.Meets total per (summedExt maxDays curves) target (v + 1))

/-- C59, what holds with at most five age groups. Missing: when even daily replacement misses the target, the
answer is one day with a cycle of zeros; with more groups see `c59_many_groups`. -/
theorem c59_partial {total per maxDays : ℕ} (hp : 0 < per) (ht : 0 < total) (hg : bedGroups total per ≤ 5)
    (hd : 2 ≤ maxDays) (curves : List (ℕ → ℝ)) (target : ℝ) :
    let r := predictFullScale total per maxDays curves target
    let f := summedExt maxDays curves
    (r = (1, [0]) ∧ ¬ Spec.Meets total per f target 1) ∨
    (1 ≤ r.1 ∧ r.1 < maxDays ∧ r.2 = (List.range r.1).map (Spec.blended total per f r.1) ∧
      (∀ i, 1 ≤ i → i ≤ r.1 → Spec.Meets total per f target i) ∧
      (r.1 + 1 < maxDays → ¬ Spec.Meets total per f target (r.1 + 1))) := by
  intro r f
  have hM : ∀ i, (∀ x ∈ (List.range i).map (fun t => Spec.blended total per f i t), x ≤ target) ↔
      Spec.Meets total per f target i := by
    intro i
    simp [Spec.Meets]
  rcases rotLoop_spec (w := bedWeights total per) (groups := bedGroups total per) (n := 5 * maxDays)
    (maxDays := maxDays) (f := f) (target := target)
    (B := fun i => (List.range i).map fun t => Spec.blended total per f i t) (maxDays - 1) 1 (1, [0])
    (fun i _ hi => blend_eq hp ht f (by
      calc bedGroups total per * i ≤ 5 * i := Nat.mul_le_mul_right i hg
        _ ≤ 5 * maxDays := by omega)) with ⟨e, h⟩ | ⟨m, hm, e, h1, h2⟩
  · left
    refine ⟨e, ?_⟩
    rcases h with h | h
    · omega
    · rwa [hM 1] at h
  · right
    have e' : r = (1 + m, (List.range (1 + m)).map fun t => Spec.blended total per f (1 + m) t) := e
    rw [e']
    refine ⟨by simp, by simp only; omega, rfl, fun i hi1 hi2 => ?_, fun hlt => ?_⟩
    · have := h1 (i - 1) (by simp only at hi2; omega)
      rw [show 1 + (i - 1) = i by omega] at this
      exact (hM i).1 this
    · rcases h2 with h2 | h2
      · simp only at hlt; omega
      · intro hc
        exact h2 ((hM _).2 hc)

/-- C59 is false of the code: one bed, ten days, concentration 5 throughout, target 1. The answer is one day. -/
theorem c59_false : ¬ C59 := by
  intro h
  obtain ⟨h1, -⟩ := h 1 1 2 [fun _ => 5] 1 (by norm_num) le_rfl le_rfl
  have hv : 1 ≤ (predictFullScale 1 1 2 [fun _ => 5] 1).1 := by
    rcases c59_partial (total := 1) (per := 1) (maxDays := 2) (by norm_num) (by norm_num)
      (by rw [bedGroups_eq (by norm_num) (by norm_num)]; norm_num) le_rfl [fun _ => 5] 1 with ⟨e, -⟩ | ⟨h', -⟩
    · rw [e]
    · exact h'
  have h2 := h1 0 (by omega)
  norm_num [Spec.blended, Spec.groupOf, summedExt, summedDaily, interpExtrap, List.range_succ] at h2

theorem rotLoop_error {w : List ℝ} {groups n maxDays : ℕ} {f : ℕ → ℝ} {target : ℝ} {e : PyErr} :
    ∀ (l1 : List ℕ) (i : ℕ) (l2 : List ℕ) (best : ℕ × List ℝ),
      (∀ j ∈ l1, ∃ tmp, blend w groups n f j = .ok tmp ∧ ∀ x ∈ tmp, x ≤ target) →
      blend w groups n f i = .error e →
      rotLoop w groups n maxDays f target (l1 ++ i :: l2) best = (maxDays, List.replicate maxDays 0)
  | [], i, l2, best, _, h => by
    simp only [List.nil_append, rotLoop, h]
  | j :: l1, i, l2, best, h1, h => by
    obtain ⟨tmp, ht, hx⟩ := h1 j (by simp)
    simp only [List.cons_append, rotLoop, ht, if_pos hx]
    exact rotLoop_error l1 i l2 _ (fun j' hj' => h1 j' (by simp [hj'])) h

/-- C59, false with more than five age groups: if the intervals up to `m` meet the target and the curves then run
out of days, the answer is `maxDays` with a cycle of zeros, whatever the curves are. -/
theorem c59_many_groups {total per maxDays m : ℕ} (hp : 0 < per) (ht : 0 < total) {curves : List (ℕ → ℝ)}
    {target : ℝ} (hm : m + 1 < maxDays) (hfit : bedGroups total per * m ≤ 5 * maxDays)
    (hok : ∀ i, 1 ≤ i → i ≤ m → Spec.Meets total per (summedExt maxDays curves) target i)
    (hj : ∃ j < bedGroups total per, sliceLen (5 * maxDays) (m + 1) j ≠ m + 1 ∧ sliceLen (5 * maxDays) (m + 1) j ≠ 1) :
    predictFullScale total per maxDays curves target = (maxDays, List.replicate maxDays 0) := by
  unfold predictFullScale
  have e : List.range' 1 (maxDays - 1) = List.range' 1 m ++ (m + 1) :: List.range' (m + 2) (maxDays - 2 - m) := by
    have e2 : (m + 1) :: List.range' (m + 2) (maxDays - 2 - m) = List.range' (1 + m) (maxDays - 2 - m + 1) := by
      rw [List.range'_succ, Nat.add_comm 1 m]
    rw [e2, List.range'_append_1]
    congr 1
    omega
  rw [e]
  refine rotLoop_error (e := .valueError) _ _ _ _ (fun j hj => ?_) ?_
  · rw [List.mem_range'_1] at hj
    refine ⟨_, blend_eq hp ht _ ((Nat.mul_le_mul_left _ (by omega)).trans hfit), fun x hx => ?_⟩
    obtain ⟨t, ht', rfl⟩ := List.mem_map.1 hx
    exact hok j hj.1 (by omega) t (List.mem_range.1 ht')
  · have hl := (c58_groups hp ht).1
    unfold blend
    rw [if_neg (by omega), if_neg]
    intro hall
    rw [List.all_eq_true] at hall
    obtain ⟨j, hj1, hj2, hj3⟩ := hj
    have := hall j (List.mem_range.2 hj1)
    simp [hj2, hj3] at this

/-- The hypotheses of `c59_partial` and of `c59_many_groups` are met: four beds two at a time, ten beds one at a
time with no contaminant. -/
example : bedGroups 4 2 ≤ 5 ∧ (∃ j < bedGroups 10 1, sliceLen (5 * 10) (5 + 1) j ≠ 5 + 1 ∧ sliceLen (5 * 10) (5 + 1) j ≠ 1) ∧
    bedGroups 10 1 * 5 ≤ 5 * 10 ∧
    ∀ i, 1 ≤ i → i ≤ 5 → Spec.Meets 10 1 (summedExt 10 []) 1 i := by
  rw [bedGroups_eq (by norm_num) (by norm_num), bedGroups_eq (by norm_num) (by norm_num)]
  refine ⟨by norm_num, ⟨8, by norm_num, by decide, by decide⟩, by norm_num, fun i _ _ t _ => ?_⟩
  have hz : ∀ day, summedExt 10 [] day = 0 := by
    intro day
    simp [summedExt, summedDaily, interpExtrap, List.range_succ]
  simp [Spec.blended, hz]

/-! ### C60 and C61 -/

theorem npInterp_lt {m : ℝ} : ∀ {tab : List (ℝ × ℝ)}, Spec.Increasing tab → tab ≠ [] → (∀ r ∈ tab, r.2 < m) →
    ∀ t, npInterp tab t < m
  | [], _, h, _, _ => absurd rfl h
  | [r], _, _, hm, t => hm r (by simp)
  | r0 :: r1 :: rest, hinc, _, hm, t => by
    unfold npInterp
    have h0 := hm r0 (by simp)
    have h1 := hm r1 (by simp)
    have hlt : r0.1 < r1.1 := (List.pairwise_cons.1 hinc).1 r1 (by simp)
    split
    · exact h0
    · rename_i ht0
      split
      · rename_i ht1
        have hpos : 0 < r1.1 - r0.1 := sub_pos.2 hlt
        have hs : (r1.2 - r0.2) / (r1.1 - r0.1) * (t - r0.1) =
          (r1.2 - r0.2) * ((t - r0.1) / (r1.1 - r0.1)) := by ring
        rw [hs]
        have ha : 0 ≤ (t - r0.1) / (r1.1 - r0.1) := div_nonneg (by linarith) hpos.le
        have hb : (t - r0.1) / (r1.1 - r0.1) ≤ 1 := by rw [div_le_one hpos]; linarith
        rcases le_total r0.2 r1.2 with h | h
        · have := mul_le_mul_of_nonneg_left hb (sub_nonneg.2 h)
          linarith
        · have := mul_nonneg (sub_nonneg.2 h) ha
          linarith
      · exact npInterp_lt (List.pairwise_cons.1 hinc).2 (by simp) (fun r hr => hm r (by simp [hr])) t

/-- Tables over the same times whose values are ordered have ordered interpolations. -/
theorem npInterp_mono {a b : (String → ℝ) → ℝ} : ∀ {l1 l2 : List (ℝ × (String → ℝ))},
    List.Forall₂ (fun x y => x.1 = y.1 ∧ a x.2 ≤ b y.2) l1 l2 → List.Pairwise (fun x y => x.1 < y.1) l1 →
    ∀ t, npInterp (l1.map fun r => (r.1, a r.2)) t ≤ npInterp (l2.map fun r => (r.1, b r.2)) t
  | [], _, .nil, _, t => le_rfl
  | [r], _, .cons h .nil, _, t => h.2
  | r0 :: r1 :: rest, _, .cons (b := s0) h0 (.cons (b := s1) (l₂ := rest2) h1 hr), hinc, t => by
    have ih := npInterp_mono (.cons h1 hr) (List.pairwise_cons.1 hinc).2 t
    have hlt : r0.1 < r1.1 := (List.pairwise_cons.1 hinc).1 r1 (by simp)
    simp only [List.map_cons] at ih ⊢
    unfold npInterp
    simp only [← h0.1, ← h1.1]
    split
    · exact h0.2
    · rename_i ht0
      split
      · rename_i ht1
        have hpos : 0 < r1.1 - r0.1 := sub_pos.2 hlt
        have hs : ∀ x y : ℝ, y + (x - y) / (r1.1 - r0.1) * (t - r0.1) =
          x * ((t - r0.1) / (r1.1 - r0.1)) + y * (1 - (t - r0.1) / (r1.1 - r0.1)) := by
          intro x y; ring
        rw [hs, hs]
        have ha : 0 ≤ (t - r0.1) / (r1.1 - r0.1) := div_nonneg (by linarith) hpos.le
        have hb : (t - r0.1) / (r1.1 - r0.1) ≤ 1 := by rw [div_le_one hpos]; linarith
        have e0 := mul_le_mul_of_nonneg_right h0.2 (sub_nonneg.2 hb)
        have e1 := mul_le_mul_of_nonneg_right h1.2 ha
        linarith
      · rw [← h1.1] at ih
        exact ih

/-- `firstOver` names the day before the first one over the limit. -/
theorem firstOver_some {curve : ℕ → ℝ} {mcl : ℝ} {n : ℕ} {d : ℤ} :
    firstOver curve mcl n = some d ↔
      ∃ k : ℕ, d = (k : ℤ) - 1 ∧ k < n ∧ mcl < curve k ∧ ∀ j < k, curve j ≤ mcl := by
  unfold firstOver
  rw [Option.map_eq_some_iff]
  constructor
  · rintro ⟨k, hk, rfl⟩
    rw [List.find?_range_eq_some] at hk
    obtain ⟨h1, h2, h3⟩ := hk
    refine ⟨k, rfl, List.mem_range.1 h2, by simpa using h1, fun j hj => ?_⟩
    have := h3 j hj
    simpa using this
  · rintro ⟨k, rfl, hk, h1, h2⟩
    refine ⟨k, ?_, rfl⟩
    rw [List.find?_range_eq_some]
    refine ⟨by simpa using h1, List.mem_range.2 hk, fun j hj => ?_⟩
    simpa using h2 j hj

theorem firstOver_none {curve : ℕ → ℝ} {mcl : ℝ} {n : ℕ} :
    firstOver curve mcl n = none ↔ ∀ j < n, curve j ≤ mcl := by
  unfold firstOver
  rw [Option.map_eq_none_iff, List.find?_eq_none]
  simp

/-- A table as the column produces it: times increase, no column is called `HI`. -/
def Spec.WellFormed (f : EffTable) : Prop := f.rows.Pairwise (fun x y => x.1 < y.1) ∧ "HI" ∉ f.cols

theorem increasing_col {f : EffTable} (h : Spec.WellFormed f) (c : String) :
    Spec.Increasing (f.rows.map fun r => (r.1, r.2 c)) := by
  unfold Spec.Increasing
  rw [List.pairwise_map]
  exact h.1

/-- The row of a compound is the search over its daily curve, whether or not a note was set. -/
theorem predicted_eq {f : EffTable} {c : String} {mcl : ℝ} {p : Option ℤ} (hf : Spec.WellFormed f) (hr : f.rows ≠ [])
    (hc : c ∈ f.cols ∨ (c = "HI" ∧ mcl = 1)) (h : f.predicted c mcl = .ok p) :
    p = firstOver (f.curve c) mcl f.days := by
  unfold EffTable.predicted at h
  cases hn : f.note c mcl with
  | none =>
    rw [hn] at h
    simp only at h
    split at h
    · cases h
    · cases h; rfl
  | some k =>
    rw [hn] at h
    cases h
    symm
    rw [firstOver_none]
    intro j hj
    unfold EffTable.note at hn
    split at hn
    · rename_i h1
      rcases hc with hc | ⟨-, rfl⟩
      · rw [h1.1] at hc
        exact absurd hc hf.2
      · unfold EffTable.curve
        rw [if_pos h1.1]
        exact (h1.2 j hj).le
    · split at hn
      · rename_i h1
        rcases hc with hc | ⟨rfl, -⟩
        · exact absurd hc h1.2
        · simp at h1
      · split at hn
        · rename_i h1
          have hne : c ≠ "HI" := by
            rintro rfl
            exact hf.2 h1.1
          unfold EffTable.curve
          rw [if_neg hne]
          unfold EffTable.daily
          refine (npInterp_lt (increasing_col hf c) (by simpa using hr) ?_ _).le
          intro r hr'
          obtain ⟨x, hx, rfl⟩ := List.mem_map.1 hr'
          exact h1.2 x hx
        · cases hn

theorem mapM_mem {α β : Type} {g : α → Except PyErr β} : ∀ {l : List α} {t : List β}, l.mapM g = .ok t →
    ∀ y ∈ t, ∃ x ∈ l, g x = .ok y
  | [], t, h, y, hy => by
    cases h
    simp at hy
  | a :: l, t, h, y, hy => by
    rw [List.mapM_cons] at h
    cases ha : g a with
    | error e => rw [ha] at h; cases h
    | ok b =>
      rw [ha] at h
      cases hl : l.mapM g with
      | error e => rw [hl] at h; cases h
      | ok t' =>
        rw [hl] at h
        cases h
        rcases List.mem_cons.1 hy with rfl | hy
        · exact ⟨a, by simp, ha⟩
        · obtain ⟨x, hx, hgx⟩ := mapM_mem hl y hy
          exact ⟨x, by simp [hx], hgx⟩

theorem riBase_ok {f : EffTable} {t : List (String × RRow)} (h : riBase f = .ok t) :
    f.rows ≠ [] ∧ "PFBS" ∈ f.cols ∧ f.days ≠ 0 ∧
    mcls.mapM (fun (x : String × ℝ) => (f.predicted x.1 x.2).map fun p =>
      (x.1, (⟨p, none, none, f.note x.1 x.2⟩ : RRow))) = .ok t := by
  unfold riBase at h
  split at h
  · cases h
  · rename_i h1
    split at h
    · cases h
    · rename_i h2
      split at h
      · cases h
      · rename_i h3
        exact ⟨h1, not_not.1 h2, h3, h⟩

theorem riBase_row {f : EffTable} {t : List (String × RRow)} (h : riBase f = .ok t) {c : String} {r : RRow}
    (hr : (c, r) ∈ t) : ∃ mcl, (c, mcl) ∈ mcls ∧ f.predicted c mcl = .ok r.predicted := by
  obtain ⟨-, -, -, h⟩ := riBase_ok h
  obtain ⟨x, hx, hp⟩ := mapM_mem h _ hr
  refine ⟨x.2, ?_⟩
  cases hq : f.predicted x.1 x.2 with
  | error e => rw [hq] at hp; cases hp
  | ok p =>
    rw [hq] at hp
    simp only [Except.map, Except.ok.injEq, Prod.mk.injEq] at hp
    obtain ⟨rfl, rfl⟩ := hp
    exact ⟨hx, hq⟩

/-- Rows of the result come from the rows of the base table, with the same prediction. -/
theorem ri_row {f : EffTable} {unc : Option (EffTable × EffTable)} {t : List (String × RRow)}
    (h : replacementInterval f unc = .ok t) {c : String} {r : RRow} (hr : (c, r) ∈ t) :
    ∃ t0, riBase f = .ok t0 ∧ ∃ r0, (c, r0) ∈ t0 ∧ r.predicted = r0.predicted := by
  unfold replacementInterval at h
  cases h0 : riBase f with
  | error e => rw [h0] at h; cases h
  | ok t0 =>
    rw [h0] at h
    refine ⟨t0, rfl, ?_⟩
    cases unc with
    | none =>
      simp only [bind, Except.bind, pure, Except.pure, Except.ok.injEq] at h
      subst h
      obtain ⟨x, hx, he⟩ := List.mem_map.1 hr
      simp only [Prod.mk.injEq] at he
      obtain ⟨rfl, rfl⟩ := he
      exact ⟨x.2, hx, rfl⟩
    | some u =>
      obtain ⟨lo, up⟩ := u
      cases hl : riBase lo with
      | error e => simp only [bind, Except.bind, hl] at h; cases h
      | ok rl =>
        cases hu : riBase up with
        | error e => simp only [bind, Except.bind, hl, hu] at h; cases h
        | ok ru =>
          simp only [bind, Except.bind, pure, Except.pure, hl, hu, Except.ok.injEq] at h
          subst h
          obtain ⟨x, hx, he⟩ := List.mem_map.1 hr
          simp only [Prod.mk.injEq] at he
          obtain ⟨rfl, rfl⟩ := he
          exact ⟨x.2, hx, rfl⟩

theorem mcls_hi {m : ℝ} (h : ("HI", m) ∈ mcls) : m = 1 := by
  simpa [mcls] using h

/-- The limits (ng/L) of the drinking water regulation. -/
noncomputable def Spec.limit : String → Option ℝ
  | "PFOA" => some 4
  | "PFOS" => some 4
  | "PFHxS" => some 10
  | "PFNA" => some 10
  | "GenX" => some 10
  | _ => none

theorem mcls_limit {c : String} {m : ℝ} (h : (c, m) ∈ mcls) (hc : c ≠ "HI") : Spec.limit c = some m := by
  simp only [mcls, List.mem_cons, Prod.mk.injEq, List.not_mem_nil, or_false] at h
  rcases h with ⟨rfl, rfl⟩ | ⟨rfl, rfl⟩ | ⟨rfl, rfl⟩ | ⟨rfl, rfl⟩ | ⟨rfl, rfl⟩ | ⟨rfl, rfl⟩
  · rfl
  · rfl
  · rfl
  · rfl
  · rfl
  · exact absurd rfl hc

/-- Whole days looked at: those less than a day after the last row. -/
def Spec.DayOf (f : EffTable) (k : ℕ) : Prop := ∃ l r, f.rows = l ++ [r] ∧ (k : ℝ) < r.1 + 1

theorem days_iff {f : EffTable} (k : ℕ) : k < f.days ↔ Spec.DayOf f k := by
  unfold EffTable.days Spec.DayOf
  rw [Nat.lt_ceil]
  rcases List.eq_nil_or_concat f.rows with h | ⟨l, r, h⟩
  · rw [h]
    refine ⟨fun h1 => ?_, fun ⟨l, r, h1, _⟩ => ?_⟩
    · simp only [List.getLastD_nil] at h1
      have : (0 : ℝ) ≤ k := Nat.cast_nonneg k
      linarith
    · simp at h1
  · rw [List.concat_eq_append] at h
    rw [h, List.getLastD_concat]
    refine ⟨fun h1 => ⟨l, r, rfl, h1⟩, fun ⟨l', r', h1, h2⟩ => ?_⟩
    have := List.append_inj_right' h1 rfl
    cases this
    exact h2

theorem npInterp_segment {tab : List (ℝ × ℝ)} (hinc : Spec.Increasing tab) {a b : ℝ × ℝ}
    (hs : Spec.Segment tab a b) {t : ℝ} (h1 : a.1 ≤ t) (h2 : t ≤ b.1) :
    npInterp tab t = a.2 + (b.2 - a.2) / (b.1 - a.1) * (t - a.1) := by
  obtain ⟨l, r, rfl⟩ := hs
  induction l with
  | nil =>
    simp only [List.nil_append, npInterp]
    by_cases h : t ≤ a.1
    · rw [if_pos h, le_antisymm h h1, sub_self, mul_zero, add_zero]
    · rw [if_neg h, if_pos h2]
  | cons c l ih =>
    have hinc' : Spec.Increasing (l ++ a :: b :: r) := (List.pairwise_cons.1 hinc).2
    have hca : c.1 < a.1 := (List.pairwise_cons.1 hinc).1 a (by simp)
    cases l with
    | nil =>
      simp only [List.nil_append, List.cons_append] at ih ⊢
      rw [npInterp, if_neg (by linarith)]
      by_cases hta : t ≤ a.1
      · have : t = a.1 := le_antisymm hta h1
        subst this
        rw [if_pos le_rfl, sub_self, mul_zero, add_zero, div_mul_cancel₀ _ (by linarith)]
        ring
      · rw [if_neg hta]; exact ih hinc'
    | cons d l =>
      simp only [List.cons_append] at ih hinc' ⊢
      have hda : d.1 < a.1 := (List.pairwise_cons.1 hinc').1 a (by simp)
      rw [npInterp, if_neg (by linarith), if_neg (by linarith)]
      exact ih hinc'

theorem npInterp_last {r : ℝ × ℝ} {t : ℝ} : ∀ {l : List (ℝ × ℝ)}, Spec.Increasing (l ++ [r]) → r.1 ≤ t →
    npInterp (l ++ [r]) t = r.2
  | [], _, _ => rfl
  | [c], hinc, h => by
    have hc : c.1 < r.1 := (List.pairwise_cons.1 hinc).1 r (by simp)
    simp only [List.cons_append, List.nil_append, npInterp]
    rw [if_neg (by linarith)]
    split
    · rename_i h2
      have : t = r.1 := le_antisymm h2 h
      rw [this, div_mul_cancel₀ _ (by linarith)]
      ring
    · rfl
  | c :: d :: l, hinc, h => by
    have hinc' : Spec.Increasing (d :: l ++ [r]) := (List.pairwise_cons.1 hinc).2
    have hc : c.1 < r.1 := (List.pairwise_cons.1 hinc).1 r (by simp)
    have hd : d.1 < r.1 := (List.pairwise_cons.1 hinc').1 r (by simp)
    have ih := npInterp_last hinc' h
    simp only [List.cons_append] at ih ⊢
    rw [npInterp, if_neg (by linarith), if_neg (by linarith)]
    exact ih

/-- C60, what the daily curve of a compound is: the straight line between consecutive rows of the table, the first
value before it and the last value after it. -/
theorem c60_daily {f : EffTable} (hf : Spec.WellFormed f) (c : String) (k : ℕ) :
    (∀ l a b r, f.rows = l ++ a :: b :: r → a.1 ≤ (k : ℝ) → (k : ℝ) ≤ b.1 →
      f.daily c k = a.2 c + (b.2 c - a.2 c) / (b.1 - a.1) * (k - a.1)) ∧
    (∀ a r, f.rows = a :: r → (k : ℝ) ≤ a.1 → f.daily c k = a.2 c) ∧
    (∀ l a, f.rows = l ++ [a] → a.1 ≤ (k : ℝ) → f.daily c k = a.2 c) := by
  refine ⟨fun l a b r h h1 h2 => ?_, fun a r h h1 => ?_, fun l a h h1 => ?_⟩
  · refine npInterp_segment (increasing_col hf c) (a := (a.1, a.2 c)) (b := (b.1, b.2 c)) ?_ h1 h2
    refine ⟨l.map fun r => (r.1, r.2 c), r.map fun r => (r.1, r.2 c), ?_⟩
    rw [h, List.map_append]
    rfl
  · unfold EffTable.daily
    rw [h]
    cases r with
    | nil => rfl
    | cons b r =>
      simp only [List.map_cons, npInterp]
      rw [if_pos h1]
  · have h2 := increasing_col hf c
    unfold EffTable.daily
    rw [h, List.map_append] at h2 ⊢
    exact npInterp_last (r := (a.1, a.2 c)) h2 h1

/-- C60. For a compound of the table with a limit, the predicted interval is the day before the first day over the
limit: no day up to it is over, the next one is. If some day is over the limit there is a prediction, and if there
is none no day is over. -/
theorem c60_compound {f : EffTable} {unc : Option (EffTable × EffTable)} {t : List (String × RRow)}
    (hf : Spec.WellFormed f) (h : replacementInterval f unc = .ok t) {c : String} {r : RRow} (hr : (c, r) ∈ t)
    (hc : c ∈ f.cols) : ∃ mcl, Spec.limit c = some mcl ∧
      (∀ d, r.predicted = some d ↔ ∃ k : ℕ, d = (k : ℤ) - 1 ∧ Spec.DayOf f k ∧ mcl < f.daily c k ∧
        ∀ j < k, f.daily c j ≤ mcl) ∧
      (r.predicted = none ↔ ∀ j, Spec.DayOf f j → f.daily c j ≤ mcl) := by
  obtain ⟨t0, h0, r0, hr0, e⟩ := ri_row h hr
  obtain ⟨mcl, hm, hp⟩ := riBase_row h0 hr0
  have hq := predicted_eq hf (riBase_ok h0).1 (.inl hc) hp
  have hne : c ≠ "HI" := by rintro rfl; exact hf.2 hc
  have hcur : f.curve c = f.daily c := by unfold EffTable.curve; rw [if_neg hne]
  rw [hcur] at hq
  refine ⟨mcl, mcls_limit hm hne, fun d => ?_, ?_⟩
  · rw [e, hq, firstOver_some]
    simp only [days_iff]
  · rw [e, hq, firstOver_none]
    simp only [days_iff]

/-- C60 for the hazard index the code computes (see C62 for what that is). -/
theorem c60_hazard {f : EffTable} {unc : Option (EffTable × EffTable)} {t : List (String × RRow)}
    (hf : Spec.WellFormed f) (h : replacementInterval f unc = .ok t) {r : RRow} (hr : ("HI", r) ∈ t) :
    (∀ d, r.predicted = some d ↔ ∃ k : ℕ, d = (k : ℤ) - 1 ∧ Spec.DayOf f k ∧ 1 < f.hi k ∧ ∀ j < k, f.hi j ≤ 1) ∧
    (r.predicted = none ↔ ∀ j, Spec.DayOf f j → f.hi j ≤ 1) := by
  obtain ⟨t0, h0, r0, hr0, e⟩ := ri_row h hr
  obtain ⟨mcl, hm, hp⟩ := riBase_row h0 hr0
  have h1 := mcls_hi hm
  subst h1
  have hq := predicted_eq hf (riBase_ok h0).1 (.inr ⟨rfl, rfl⟩) hp
  have hcur : f.curve "HI" = f.hi := by unfold EffTable.curve; rw [if_pos rfl]
  rw [hcur] at hq
  simp only [← days_iff]
  exact ⟨fun d => by rw [e, hq, firstOver_some], by rw [e, hq, firstOver_none]⟩

/-- `a` lies below `b`: same columns, same times, every value at most the other's. -/
def Spec.Below (a b : EffTable) : Prop :=
  a.cols = b.cols ∧ List.Forall₂ (fun x y => x.1 = y.1 ∧ ∀ c, x.2 c ≤ y.2 c) a.rows b.rows

theorem forall₂_last {a b : List (ℝ × (String → ℝ))}
    (h : List.Forall₂ (fun x y => x.1 = y.1 ∧ ∀ c, x.2 c ≤ y.2 c) a b) (z : ℝ × (String → ℝ)) :
    (a.getLastD z).1 = (b.getLastD z).1 := by
  induction h generalizing z with
  | nil => rfl
  | cons hab _ ih =>
    rename_i x y l1 l2 hh
    cases hh with
    | nil => exact hab.1
    | cons h1 h2 =>
      have := ih z
      simpa [List.getLastD_cons] using this

theorem below_days {a b : EffTable} (h : Spec.Below a b) : a.days = b.days := by
  unfold EffTable.days
  rw [forall₂_last h.2]

theorem below_daily {a b : EffTable} (ha : Spec.WellFormed a) (h : Spec.Below a b) (c : String) (d : ℕ) :
    a.daily c d ≤ b.daily c d :=
  npInterp_mono (a := fun r => r c) (b := fun r => r c) (h.2.imp fun _ _ hx => ⟨hx.1, hx.2 c⟩) ha.1 d

theorem below_curve {a b : EffTable} (ha : Spec.WellFormed a) (h : Spec.Below a b) (c : String) (d : ℕ) :
    a.curve c d ≤ b.curve c d := by
  unfold EffTable.curve
  split
  · unfold EffTable.hi
    rw [h.1]
    refine List.sum_le_sum fun x _ => ?_
    exact div_le_div_of_nonneg_right (below_daily ha h x d) (by norm_num)
  · exact below_daily ha h c d

/-- The higher curve is over the limit no later. -/
theorem firstOver_mono {u v : ℕ → ℝ} {mcl : ℝ} {n : ℕ} (h : ∀ d, u d ≤ v d) {d : ℤ}
    (hd : firstOver u mcl n = some d) : ∃ l, firstOver v mcl n = some l ∧ l ≤ d := by
  obtain ⟨k, rfl, hk, h1, h2⟩ := firstOver_some.1 hd
  cases hv : firstOver v mcl n with
  | none =>
    have := firstOver_none.1 hv k hk
    have := h k
    linarith
  | some l =>
    obtain ⟨m, rfl, hm, h3, h4⟩ := firstOver_some.1 hv
    refine ⟨_, rfl, ?_⟩
    by_contra hlt
    have hkm : k < m := by omega
    have := h4 k hkm
    have := h k
    linarith

theorem mapM_lookup {f : EffTable} : ∀ {l : List (String × ℝ)} {t : List (String × RRow)},
    l.mapM (fun (x : String × ℝ) => (f.predicted x.1 x.2).map fun p =>
      (x.1, (⟨p, none, none, f.note x.1 x.2⟩ : RRow))) = .ok t → (l.map Prod.fst).Nodup →
    ∀ c mcl, (c, mcl) ∈ l → ∃ p, f.predicted c mcl = .ok p ∧ predOf t c = p
  | [], t, h, _, c, mcl, hc => by simp at hc
  | a :: l, t, h, hnd, c, mcl, hc => by
    rw [List.mapM_cons] at h
    cases ha : f.predicted a.1 a.2 with
    | error e => rw [ha] at h; cases h
    | ok p =>
      rw [ha] at h
      cases hl : l.mapM (fun (x : String × ℝ) => (f.predicted x.1 x.2).map fun p =>
        (x.1, (⟨p, none, none, f.note x.1 x.2⟩ : RRow))) with
      | error e => rw [hl] at h; cases h
      | ok t' =>
        rw [hl] at h
        cases h
        rw [List.map_cons, List.nodup_cons] at hnd
        rcases List.mem_cons.1 hc with he | hc
        · rw [← he] at ha ⊢
          exact ⟨p, ha, by simp [predOf]⟩
        · obtain ⟨q, hq, hp⟩ := mapM_lookup hl hnd.2 c mcl hc
          refine ⟨q, hq, ?_⟩
          have hne : c ≠ a.1 := by
            rintro rfl
            exact hnd.1 (List.mem_map.2 ⟨_, hc, rfl⟩)
          unfold predOf at hp ⊢
          rw [List.lookup_cons]
          have hb : (c == a.1) = false := by simpa using hne
          simp only [hb]
          exact hp

theorem mcls_nodup : (mcls.map Prod.fst).Nodup := by
  show ["PFOA", "PFOS", "PFHxS", "PFNA", "GenX", "HI"].Nodup
  decide

/-- The prediction of a row, for compounds of the table and the hazard index. -/
theorem predOf_eq {f : EffTable} {t : List (String × RRow)} (hf : Spec.WellFormed f) (h : riBase f = .ok t)
    {c : String} {mcl : ℝ} (hc : (c, mcl) ∈ mcls) :
    predOf t c = if c ∈ f.cols ∨ c = "HI" then firstOver (f.curve c) mcl f.days else none := by
  obtain ⟨p, hp, he⟩ := mapM_lookup (riBase_ok h).2.2.2 mcls_nodup c mcl hc
  rw [he]
  split
  · rename_i hx
    refine predicted_eq hf (riBase_ok h).1 ?_ hp
    rcases hx with hx | rfl
    · exact .inl hx
    · exact .inr ⟨rfl, mcls_hi hc⟩
  · rename_i hx
    push Not at hx
    unfold EffTable.predicted at hp
    split at hp
    · cases hp; rfl
    · rw [if_pos ⟨hx.2, hx.1⟩] at hp
      cases hp

/-- C61. With a lower table below the base and an upper one above: a prediction has a lower interval that is no
longer, and if there is an upper interval there is a prediction that is no longer. -/
theorem c61_bracket {f lo up : EffTable} {t : List (String × RRow)} (hl : Spec.WellFormed lo)
    (hf : Spec.WellFormed f) (hu : Spec.WellFormed up) (h1 : Spec.Below lo f) (h2 : Spec.Below f up)
    (h : replacementInterval f (some (lo, up)) = .ok t) {c : String} {r : RRow} (hr : (c, r) ∈ t) :
    (∀ d, r.predicted = some d → ∃ l, r.lower = some l ∧ l ≤ d) ∧
    (∀ u, r.upper = some u → ∃ d, r.predicted = some d ∧ d ≤ u) := by
  unfold replacementInterval at h
  cases hb : riBase f with
  | error e => simp only [bind, Except.bind, hb] at h; cases h
  | ok t0 =>
    cases hlo : riBase lo with
    | error e => simp only [bind, Except.bind, hb, hlo] at h; cases h
    | ok rl =>
      cases hup : riBase up with
      | error e => simp only [bind, Except.bind, hb, hlo, hup] at h; cases h
      | ok ru =>
        simp only [bind, Except.bind, pure, Except.pure, hb, hlo, hup, Except.ok.injEq] at h
        subst h
        obtain ⟨x, hx, he⟩ := List.mem_map.1 hr
        simp only [Prod.mk.injEq] at he
        obtain ⟨rfl, rfl⟩ := he
        obtain ⟨mcl, hm, hp⟩ := riBase_row hb hx
        simp only
        rw [predOf_eq hl hlo hm, predOf_eq hu hup hm]
        by_cases hc : x.1 ∈ f.cols ∨ x.1 = "HI"
        · have hq : x.2.predicted = firstOver (f.curve x.1) mcl f.days := by
            refine predicted_eq hf (riBase_ok hb).1 ?_ hp
            rcases hc with hc | hc
            · exact .inl hc
            · exact .inr ⟨hc, mcls_hi (hc ▸ hm)⟩
          rw [if_pos (show x.1 ∈ up.cols ∨ _ by rw [← h2.1]; exact hc),
            if_pos (show x.1 ∈ lo.cols ∨ _ by rw [h1.1]; exact hc), hq, below_days h1, ← below_days h2]
          exact ⟨fun d hd => firstOver_mono (below_curve hf h2 x.1) hd,
            fun u hu => firstOver_mono (below_curve hl h1 x.1) hu⟩
        · have hq : x.2.predicted = none := by
            push Not at hc
            unfold EffTable.predicted at hp
            split at hp
            · exact (Except.ok.inj hp).symm
            · rw [if_pos ⟨hc.2, hc.1⟩] at hp
              cases hp
          rw [if_neg (show ¬ (x.1 ∈ up.cols ∨ _) by rw [← h2.1]; exact hc),
            if_neg (show ¬ (x.1 ∈ lo.cols ∨ _) by rw [h1.1]; exact hc), hq]
          exact ⟨fun d hd => (by cases hd), fun d hd => (by cases hd)⟩

/-! ### C62 -/

/-- The full claim: the index sums all four contributions, and a table without PFBS is processed. -/
def C62 : Prop :=
  (∀ (f : EffTable) (d : ℕ), (∀ c ∈ ["PFHxS", "PFNA", "GenX", "PFBS"], c ∈ f.cols) →
    f.hi d = f.daily "PFHxS" d / 10 + f.daily "PFNA" d / 10 + f.daily "GenX" d / 10 + f.daily "PFBS" d / 2000) ∧
  ∀ f : EffTable, f.rows ≠ [] → f.days ≠ 0 → (∀ c ∈ ["PFOA", "PFOS"], c ∈ f.cols) → "PFBS" ∉ f.cols →
    ∃ t, replacementInterval f none = .ok t

/-- C62, false of the code: PFBS does not count. -/
theorem c62_false : ¬ C62 := by
  rintro ⟨h, -⟩
  have := h ⟨["PFHxS", "PFNA", "GenX", "PFBS"], [(0, fun _ => 2000)]⟩ 0 (by simp)
  norm_num [EffTable.hi, EffTable.daily, npInterp] at this

/-- C62, false of the code: a table without PFBS raises. -/
theorem c62_missing_pfbs {f : EffTable} {unc : Option (EffTable × EffTable)} (hr : f.rows ≠ []) (h : "PFBS" ∉ f.cols) :
    replacementInterval f unc = .error .keyError := by
  have : riBase f = .error .keyError := by
    unfold riBase
    rw [if_neg hr, if_pos h]
  unfold replacementInterval
  rw [this]
  rfl

/-- C62, what holds: the index sums the contributions of PFHxS, PFNA and GenX, those present. Missing: PFBS. -/
theorem c62_partial (f : EffTable) (d : ℕ) :
    f.hi d = (if "PFHxS" ∈ f.cols then f.daily "PFHxS" d / 10 else 0) +
      (if "PFNA" ∈ f.cols then f.daily "PFNA" d / 10 else 0) +
      (if "GenX" ∈ f.cols then f.daily "GenX" d / 10 else 0) := by
  unfold EffTable.hi
  by_cases h1 : "PFHxS" ∈ f.cols <;> by_cases h2 : "PFNA" ∈ f.cols <;> by_cases h3 : "GenX" ∈ f.cols <;>
    (simp [h1, h2, h3]; try ring)

theorem mapM_all {α β : Type} {g : α → Except PyErr β} : ∀ {l : List α}, (∀ x ∈ l, ∃ y, g x = .ok y) →
    ∃ t, l.mapM g = .ok t
  | [], _ => ⟨[], rfl⟩
  | a :: l, h => by
    obtain ⟨y, hy⟩ := h a (by simp)
    obtain ⟨t, ht⟩ := mapM_all (fun x hx => h x (by simp [hx]) : ∀ x ∈ l, _)
    exact ⟨y :: t, by rw [List.mapM_cons, hy, ht]; rfl⟩

/-- C62. A table with PFBS, PFOA and PFOS is processed, whichever of the others it lacks. -/
theorem c62_processed {f : EffTable} (hr : f.rows ≠ []) (hd : f.days ≠ 0)
    (hc : ∀ c ∈ ["PFOA", "PFOS", "PFBS"], c ∈ f.cols) : ∃ t, replacementInterval f none = .ok t := by
  have : ∃ t, riBase f = .ok t := by
    unfold riBase
    rw [if_neg hr, if_neg (not_not.2 (hc _ (by simp))), if_neg hd]
    refine mapM_all fun x hx => ?_
    have : ∃ p, f.predicted x.1 x.2 = .ok p := by
      unfold EffTable.predicted
      split
      · exact ⟨_, rfl⟩
      · rename_i hn
        split
        · rename_i h1
          exfalso
          have hcase : x.1 = "PFOA" ∨ x.1 = "PFOS" ∨ x.1 = "HI" ∨ x.1 ∈ ["PFHxS", "PFNA", "GenX"] := by
            simp only [mcls, List.mem_cons, List.not_mem_nil, or_false] at hx
            rcases hx with rfl | rfl | rfl | rfl | rfl | rfl <;> simp
          rcases hcase with h | h | h | h
          · exact h1.2 (h ▸ hc _ (by simp))
          · exact h1.2 (h ▸ hc _ (by simp))
          · exact h1.1 h
          · unfold EffTable.note at hn
            rw [if_neg (fun h' => h1.1 h'.1), if_pos ⟨h, h1.2⟩] at hn
            cases hn
        · exact ⟨_, rfl⟩
    obtain ⟨p, hp⟩ := this
    obtain ⟨c, mcl⟩ := x
    exact ⟨_, by simp only at hp ⊢; rw [hp]; rfl⟩
  obtain ⟨t, ht⟩ := this
  unfold replacementInterval
  rw [ht]
  exact ⟨_, rfl⟩

/-- A table meeting the hypotheses of C60 to C62: PFOA rises from 0 to 10 in ten days. -/
noncomputable def demoFrame (s : ℝ) : EffTable :=
  ⟨["PFOA", "PFOS", "PFBS"], [(0, fun _ => 0), (10, fun c => if c = "PFOA" then s else 0)]⟩

theorem demoFrame_wf (s : ℝ) : Spec.WellFormed (demoFrame s) := by
  constructor <;> simp [demoFrame]

example : ∃ t, replacementInterval (demoFrame 10) none = .ok t :=
  c62_processed (by simp [demoFrame]) (by simp [demoFrame, EffTable.days]; norm_num) (by simp [demoFrame])

example : Spec.Below (demoFrame 9) (demoFrame 10) ∧ Spec.Below (demoFrame 10) (demoFrame 11) := by
  constructor <;> refine ⟨rfl, .cons ⟨rfl, fun c => le_rfl⟩ (.cons ⟨rfl, fun c => ?_⟩ .nil)⟩ <;>
    (simp only; split <;> norm_num)

/-! ### C63 -/

/-- The full claim: every simulated bed has the requested contact time, and its carbon is in proportion to its
volume. -/
def C63 : Prop :=
  ∀ (o : Bed) (e : ℝ), 0 < o.L → 0 < o.diam → 0 < o.flrt → 0 < o.wt → 0 < e →
    (sizeFor o e).ebct = e ∧
      (sizeFor o e).wt * (o.L * o.diam ^ 2) = o.wt * ((sizeFor o e).L * (sizeFor o e).diam ^ 2)

theorem cube_root {r : ℝ} (hr : 0 ≤ r) : r ^ (1 / 3 : ℝ) * (r ^ (1 / 3 : ℝ)) ^ 2 = r := by
  rw [← pow_succ', ← Real.rpow_natCast, ← Real.rpow_mul hr]
  norm_num

theorem ebct_pos {o : Bed} (hL : 0 < o.L) (hd : 0 < o.diam) (hf : 0 < o.flrt) : 0 < o.ebct := by
  have := Real.pi_pos
  unfold Bed.ebct
  positivity

/-- C63, what holds: carbon is in proportion to bed volume; for a contact time up to the original one the bed is
unchanged and the flow gives it the requested contact time. Missing: longer contact times, where the bed gets
`ebct₀² / e` instead of `e`. -/
theorem c63_partial {o : Bed} {e : ℝ} (hL : 0 < o.L) (hd : 0 < o.diam) (hf : 0 < o.flrt) (he : 0 < e) :
    (sizeFor o e).wt * (o.L * o.diam ^ 2) = o.wt * ((sizeFor o e).L * (sizeFor o e).diam ^ 2) ∧
    (e ≤ o.ebct → (sizeFor o e).ebct = e ∧ (sizeFor o e).L = o.L ∧ (sizeFor o e).diam = o.diam ∧
      (sizeFor o e).wt = o.wt) ∧
    (o.ebct < e → (sizeFor o e).ebct = o.ebct ^ 2 / e ∧ (sizeFor o e).flrt = o.flrt) := by
  have hE := ebct_pos hL hd hf
  have hpi := Real.pi_pos
  refine ⟨?_, fun h => ?_, fun h => ?_⟩
  · unfold sizeFor
    split
    · rfl
    · have hc := cube_root (div_pos hE he).le
      simp only
      calc o.wt * (o.ebct / e) * (o.L * o.diam ^ 2)
          = o.wt * o.L * o.diam ^ 2 * (o.ebct / e) := by ring
        _ = o.wt * o.L * o.diam ^ 2 * ((o.ebct / e) ^ (1 / 3 : ℝ) * ((o.ebct / e) ^ (1 / 3 : ℝ)) ^ 2) := by rw [hc]
        _ = _ := by ring
  · unfold sizeFor
    rw [if_pos h]
    refine ⟨?_, rfl, rfl, rfl⟩
    have hv : o.L * Real.pi * o.diam ^ 2 = o.ebct * (4 * o.flrt) := by
      unfold Bed.ebct; field_simp
    show o.L * Real.pi * o.diam ^ 2 / (4 * (o.ebct / e * o.flrt)) = e
    rw [hv]
    field_simp
  · unfold sizeFor
    rw [if_neg (not_le.2 h)]
    refine ⟨?_, rfl⟩
    have hc := cube_root (div_pos hE he).le
    have hv : o.L * Real.pi * o.diam ^ 2 = o.ebct * (4 * o.flrt) := by
      unfold Bed.ebct; field_simp
    show o.L * (o.ebct / e) ^ (1 / 3 : ℝ) * Real.pi * (o.diam * (o.ebct / e) ^ (1 / 3 : ℝ)) ^ 2 / (4 * o.flrt) = _
    rw [show o.L * (o.ebct / e) ^ (1 / 3 : ℝ) * Real.pi * (o.diam * (o.ebct / e) ^ (1 / 3 : ℝ)) ^ 2 =
      o.L * Real.pi * o.diam ^ 2 * ((o.ebct / e) ^ (1 / 3 : ℝ) * ((o.ebct / e) ^ (1 / 3 : ℝ)) ^ 2) by ring, hc, hv]
    field_simp

/-- C63 is false of the code: whenever the requested contact time is longer than the original one. -/
theorem c63_long {o : Bed} {e : ℝ} (hL : 0 < o.L) (hd : 0 < o.diam) (hf : 0 < o.flrt) (h : o.ebct < e) :
    (sizeFor o e).ebct < o.ebct ∧ (sizeFor o e).ebct ≠ e := by
  have hE := ebct_pos hL hd hf
  have he := hE.trans h
  have := ((c63_partial hL hd hf he).2.2 h).1
  have hlt : (sizeFor o e).ebct < o.ebct := by
    rw [this, div_lt_iff₀ he]
    nlinarith
  exact ⟨hlt, (hlt.trans h).ne⟩

theorem c63_false : ¬ C63 := by
  intro h
  have hb : 0 < (⟨1, 1, 1, 1⟩ : Bed).ebct := ebct_pos (by norm_num) (by norm_num) (by norm_num)
  have h1 := c63_long (o := ⟨1, 1, 1, 1⟩) (e := (⟨1, 1, 1, 1⟩ : Bed).ebct + 1) (by norm_num) (by norm_num)
    (by norm_num) (by linarith)
  exact h1.2 (h ⟨1, 1, 1, 1⟩ _ (by norm_num) (by norm_num) (by norm_num) (by norm_num) (by linarith)).1

/-! ### C94 -/

/-- The value for one compound and contact time: cubic metres treated in `d` days per kilogram of carbon, flow in
ml/min, mass in g. -/
def Spec.IsThroughput (b : Bed) (d v : ℝ) : Prop :=
  v * (b.wt / 1000) = b.flrt * (d * 24 * 60) / 1000000

theorem throughputRow_ok {life : Bed → String → Except PyErr ℝ} {o : Bed} {c : String} :
    ∀ {es : List ℝ} {b b' : Bed} {l : List ℝ}, throughputRow life o c es b = (.ok l, b') →
      List.Forall₂ (fun e v => ∃ d, life (sizeFor o e) c = .ok d ∧ v = specThroughput (sizeFor o e) d) es l ∧
      b' = (es.getLast?.map (sizeFor o)).getD b
  | [], b, b', l, h => by
    simp only [throughputRow, Prod.mk.injEq, Except.ok.injEq] at h
    obtain ⟨rfl, rfl⟩ := h
    exact ⟨.nil, rfl⟩
  | e :: es, b, b', l, h => by
    unfold throughputRow at h
    split at h
    · cases h
    · rename_i d hd
      split at h
      · cases h
      · rename_i l' b2 h2
        simp only [Prod.mk.injEq, Except.ok.injEq] at h
        obtain ⟨rfl, rfl⟩ := h
        obtain ⟨g1, g2⟩ := throughputRow_ok h2
        refine ⟨.cons ⟨d, hd, rfl⟩ g1, ?_⟩
        rw [g2]
        cases es with
        | nil => rfl
        | cons x xs =>
          rw [List.getLast?_cons_cons]
          obtain ⟨y, hy⟩ : ∃ y, (x :: xs).getLast? = some y := ⟨_, List.getLast?_eq_some_getLast (by simp)⟩
          rw [hy]
          rfl

theorem throughputAll_ok {life : Bed → String → Except PyErr ℝ} {o : Bed} {es : List ℝ} :
    ∀ {cs : List String} {b b' : Bed} {l : List (String × List ℝ)}, throughputAll life o es cs b = (.ok l, b') →
      List.Forall₂ (fun c x => x.1 = c ∧ List.Forall₂ (fun e v => ∃ d, life (sizeFor o e) c = .ok d ∧
        v = specThroughput (sizeFor o e) d) es x.2) cs l ∧
      b' = if cs = [] then b else (es.getLast?.map (sizeFor o)).getD b
  | [], b, b', l, h => by
    simp only [throughputAll, Prod.mk.injEq, Except.ok.injEq] at h
    obtain ⟨rfl, rfl⟩ := h
    exact ⟨.nil, rfl⟩
  | c :: cs, b, b', l, h => by
    unfold throughputAll at h
    split at h
    · cases h
    · rename_i l1 b1 h1
      split at h
      · cases h
      · rename_i l2 b2 h2
        simp only [Prod.mk.injEq, Except.ok.injEq] at h
        obtain ⟨rfl, rfl⟩ := h
        obtain ⟨g1, g2⟩ := throughputRow_ok h1
        obtain ⟨g3, g4⟩ := throughputAll_ok h2
        refine ⟨.cons ⟨rfl, g1⟩ g3, ?_⟩
        rw [if_neg (List.cons_ne_nil c cs), g4, g2]
        split <;> cases es.getLast? <;> rfl

/-- C94. Every value reported is the volume treated per mass of carbon of the bed sized for that contact time from
the original specification, whatever was simulated before it. -/
theorem c94_values {life : Bed → String → Except PyErr ℝ} {o b' : Bed} {es : List ℝ} {cs : List String}
    {l : List (String × List ℝ)} (hw : ∀ e ∈ es, (sizeFor o e).wt ≠ 0)
    (h : specificThroughput life o es cs = (.ok l, b')) :
    List.Forall₂ (fun c x => x.1 = c ∧ List.Forall₂ (fun e v => ∃ d, life (sizeFor o e) c = .ok d ∧
      Spec.IsThroughput (sizeFor o e) d v) es x.2) cs l := by
  refine (throughputAll_ok h).1.imp fun c x hx => ⟨hx.1, ?_⟩
  have key : ∀ (es' : List ℝ) (l' : List ℝ), (∀ e ∈ es', (sizeFor o e).wt ≠ 0) →
      List.Forall₂ (fun e v => ∃ d, life (sizeFor o e) c = .ok d ∧ v = specThroughput (sizeFor o e) d) es' l' →
      List.Forall₂ (fun e v => ∃ d, life (sizeFor o e) c = .ok d ∧ Spec.IsThroughput (sizeFor o e) d v) es' l' := by
    intro es' l' hw' h'
    induction h' with
    | nil => exact .nil
    | cons hab _ ih =>
      rename_i e v es2 l2 _
      obtain ⟨d, h1, h2⟩ := hab
      refine .cons ⟨d, h1, ?_⟩ (ih fun e he => hw' e (by simp [he]))
      have := hw' e (by simp)
      rw [h2]
      unfold Spec.IsThroughput specThroughput
      field_simp
      norm_num
      ring
  exact key es x.2 hw hx.2

/-- The hypotheses of `c63_partial`, `c63_long` and `c94_values` are met: a unit bed sized for half and for twice its
contact time, two compounds. -/
example : let o : Bed := ⟨1, 1, 1, 1⟩
    0 < o.ebct ∧ o.ebct < 2 * o.ebct ∧ (∀ e ∈ [o.ebct / 2, 2 * o.ebct], (sizeFor o e).wt ≠ 0) ∧
    ∃ l b', specificThroughput (fun _ c => if c = "A" then .ok 10 else .ok 20) o [o.ebct / 2, 2 * o.ebct] ["A", "B"] =
      (.ok l, b') := by
  intro o
  have hE : 0 < o.ebct := ebct_pos (by norm_num [o]) (by norm_num [o]) (by norm_num [o])
  refine ⟨hE, by linarith, ?_, _, _, rfl⟩
  intro e he h0
  have hpos : 0 < e := by
    simp only [List.mem_cons, List.not_mem_nil, or_false] at he
    rcases he with rfl | rfl <;> linarith
  by_cases hle : e ≤ o.ebct
  · have := ((c63_partial (o := o) (by norm_num [o]) (by norm_num [o]) (by norm_num [o]) hpos).2.1 hle).2.2.2
    rw [h0] at this
    norm_num [o] at this
  · have h1 := c63_partial (o := o) (by norm_num [o]) (by norm_num [o]) (by norm_num [o]) hpos
    have h2 := h1.2.2 (not_le.1 hle)
    have h3 := h1.1
    rw [h0, zero_mul] at h3
    have h4 : (sizeFor o e).ebct = 0 := by
      have : (sizeFor o e).L * (sizeFor o e).diam ^ 2 = 0 := by
        have : o.wt = 1 := rfl
        rw [this, one_mul] at h3
        exact h3.symm
      unfold Bed.ebct
      rcases mul_eq_zero.1 this with h | h <;> simp [h]
    rw [h2.1] at h4
    have : 0 < o.ebct ^ 2 / e := by positivity
    linarith

/-- The full claim about the caller's specification: it is left as it was. -/
def C94Specs : Prop :=
  ∀ (life : Bed → String → Except PyErr ℝ) (o b' : Bed) (es : List ℝ) (cs : List String) (l : List (String × List ℝ)),
    specificThroughput life o es cs = (.ok l, b') → b' = o

/-- C94, what happens instead: it is left as sized for the last contact time. -/
theorem c94_specs_partial {life : Bed → String → Except PyErr ℝ} {o b' : Bed} {es : List ℝ} {cs : List String}
    {l : List (String × List ℝ)} (h : specificThroughput life o es cs = (.ok l, b')) :
    b' = if cs = [] then o else (es.getLast?.map (sizeFor o)).getD o := (throughputAll_ok h).2

theorem c94_specs_false : ¬ C94Specs := by
  intro h
  let o : Bed := ⟨1, 1, 1, 1⟩
  have hE : 0 < o.ebct := ebct_pos (by norm_num) (by norm_num) (by norm_num)
  have h1 : specificThroughput (fun _ _ => .ok 1) o [o.ebct / 2] ["A"] =
    (.ok [("A", [specThroughput (sizeFor o (o.ebct / 2)) 1])], sizeFor o (o.ebct / 2)) := rfl
  have h2 := congrArg Bed.flrt (h _ _ _ _ _ _ h1)
  unfold sizeFor at h2
  rw [if_pos (by linarith)] at h2
  have h3 : o.ebct / (o.ebct / 2) = 2 := by field_simp
  simp only [h3] at h2
  norm_num [o] at h2

end WTM
