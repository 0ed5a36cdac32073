import Mathlib.Tactic
import Verif.Model.IexTimes

/-! Property C235: the times at which the ion exchange models report. -/
set_option autoImplicit false
namespace WTM

/-- The requested times are in the span of the run and increasing. -/
def Spec.Requestable (l : List ℝ) (last : ℝ) : Prop := (∀ t ∈ l, 0 ≤ t ∧ t ≤ last) ∧ l.Pairwise (· < ·)

/-- C235. A run for which times were requested reports at exactly these times: the requested times in seconds. -/
def C235 : Prop := ∀ (solver l : List ℝ) (timeMult tHalf last : ℝ), 0 < timeMult → 0 < tHalf → 0 < last → l ≠ [] →
  Spec.Requestable l last → colTimes solver timeMult tHalf last (.array l) = .ok (l.map (· * timeMult)) ∧
    batchTimes solver last (.array l) = .ok l

theorem ivp_ok (solver : List ℝ) {l : List ℝ} {tf : ℝ} (h : 0 < tf) (hl : Spec.Requestable l tf) :
    ivpTimes solver tf (some l) = .ok l := by
  unfold ivpTimes
  simp only
  rw [if_neg, if_neg]
  · rintro (⟨_, h'⟩ | ⟨h', _⟩)
    · exact h' hl.2
    · exact absurd h' (not_lt.2 h.le)
  · rintro ⟨t, ht, h' | h'⟩
    · rw [min_eq_left h.le] at h'
      exact absurd h' (not_lt.2 (hl.1 t ht).1)
    · rw [max_eq_right h.le] at h'
      exact absurd h' (not_lt.2 (hl.1 t ht).2)

theorem ivp_error (solver : List ℝ) {l : List ℝ} {tf : ℝ} (h : 0 < tf) (hl : ¬ Spec.Requestable l tf) :
    ivpTimes solver tf (some l) = .error .valueError := by
  unfold ivpTimes
  simp only
  by_cases h1 : ∃ t ∈ l, t < min 0 tf ∨ max 0 tf < t
  · rw [if_pos h1]
  · rw [if_neg h1, if_pos]
    refine Or.inl ⟨h, fun hp => hl ⟨fun t ht => ?_, hp⟩⟩
    push Not at h1
    have := h1 t ht
    rwa [min_eq_left h.le, max_eq_right h.le] at this

theorem requestable_scale {l : List ℝ} {last c : ℝ} (hc : 0 < c) :
    Spec.Requestable (l.map (· * c)) (last * c) ↔ Spec.Requestable l last := by
  unfold Spec.Requestable
  rw [List.pairwise_map]
  simp only [List.mem_map, forall_exists_index, and_imp, forall_apply_eq_imp_iff₂, mul_lt_mul_iff_left₀ hc,
    mul_le_mul_iff_left₀ hc, mul_nonneg_iff_of_pos_right hc]

/-- C235 for the columns, as far as it holds: one of the requested times is not zero. -/
theorem c235_partial (solver l : List ℝ) (timeMult tHalf last : ℝ) (hm : 0 < timeMult) (ht : 0 < tHalf) (hlast : 0 < last)
    (hne : ∃ t ∈ l, t ≠ 0) (hl : Spec.Requestable l last) :
    colTimes solver timeMult tHalf last (.array l) = .ok (l.map (· * timeMult)) ∧ batchTimes solver last (.array l) = .ok l ∧
    batchTimes solver last (.list l) = .ok l := by
  have hc : 0 < timeMult / tHalf := div_pos hm ht
  refine ⟨?_, ?_, ?_⟩
  · unfold colTimes
    simp only
    rw [if_pos (show (TEval.array l).any from hne)]
    show (ivpTimes solver (last * (timeMult / tHalf)) (some (l.map (· * (timeMult / tHalf))))).map _ = _
    rw [ivp_ok solver (mul_pos hlast hc) ((requestable_scale hc).2 hl)]
    show Except.ok _ = _
    beta_reduce
    rw [List.map_map]
    congr 1
    refine List.map_congr_left fun t _ => ?_
    show t * (timeMult / tHalf) * tHalf = t * timeMult
    field_simp
  · unfold batchTimes
    rw [if_pos (show (TEval.array l).any from hne)]
    exact ivp_ok solver hlast hl
  · unfold batchTimes
    rw [if_pos (show (TEval.list l).any from hne)]
    exact ivp_ok solver hlast hl

/-- C235. Other requests with a time that is not zero are refused. -/
theorem c235_refused (solver l : List ℝ) (timeMult tHalf last : ℝ) (hm : 0 < timeMult) (ht : 0 < tHalf) (hlast : 0 < last)
    (hne : ∃ t ∈ l, t ≠ 0) (hl : ¬ Spec.Requestable l last) :
    colTimes solver timeMult tHalf last (.array l) = .error .valueError ∧
    batchTimes solver last (.array l) = .error .valueError ∧ batchTimes solver last (.list l) = .error .valueError := by
  have hc : 0 < timeMult / tHalf := div_pos hm ht
  refine ⟨?_, ?_, ?_⟩
  · unfold colTimes
    simp only
    rw [if_pos (show (TEval.array l).any from hne)]
    show (ivpTimes solver (last * (timeMult / tHalf)) (some (l.map (· * (timeMult / tHalf))))).map _ = _
    rw [ivp_error solver (mul_pos hlast hc) fun h => hl ((requestable_scale hc).1 h)]
    rfl
  · unfold batchTimes
    rw [if_pos (show (TEval.array l).any from hne)]
    exact ivp_error solver hlast hl
  · unfold batchTimes
    rw [if_pos (show (TEval.list l).any from hne)]
    exact ivp_error solver hlast hl

/-- C235. A python list is refused by the columns, which multiply it by a number, and taken by the batches. -/
theorem c235_list (solver l : List ℝ) (timeMult tHalf last : ℝ) (hne : ∃ t ∈ l, t ≠ 0) :
    colTimes solver timeMult tHalf last (.list l) = .error .typeError := by
  unfold colTimes
  simp only
  rw [if_pos (show (TEval.list l).any from hne)]
  rfl

/-- C235. A request of no times or of time zero only is no request: the times are the integrator's. -/
theorem c235_ignored (solver : List ℝ) (a : TEval) (timeMult tHalf last : ℝ) (h : ∀ t ∈ a.times, t = 0) :
    colTimes solver timeMult tHalf last a = .ok (solver.map (· * tHalf)) ∧ batchTimes solver last a = .ok solver := by
  have hn : ¬ a.any := by
    cases a with
    | absent => exact id
    | list l => exact fun ⟨t, ht, h'⟩ => h' (h t ht)
    | array l => exact fun ⟨t, ht, h'⟩ => h' (h t ht)
  constructor
  · unfold colTimes
    simp only
    rw [if_neg hn]
    rfl
  · unfold batchTimes
    rw [if_neg hn]
    rfl

/-- C235 is false: the state at time zero cannot be requested alone. -/
theorem c235_false : ¬ C235 := by
  intro h
  have h1 := (h [0, 1] [0] 3600 60 1 (by norm_num) (by norm_num) (by norm_num) (by simp)
    ⟨by simp, List.pairwise_singleton _ _⟩).2
  rw [(c235_ignored [0, 1] (.array [0]) 3600 60 1 (by simp [TEval.times])).2] at h1
  simp at h1

/-- Hypotheses of `c235_partial`: every 12 hours of two days. -/
example : (∃ t ∈ ([0, 12, 24, 36, 48] : List ℝ), t ≠ 0) ∧ Spec.Requestable [0, 12, 24, 36, 48] 48 := by
  refine ⟨⟨12, by simp, by norm_num⟩, ?_, ?_⟩
  · intro t ht
    simp only [List.mem_cons, List.not_mem_nil, or_false] at ht
    rcases ht with rfl | rfl | rfl | rfl | rfl <;> norm_num
  · simp only [List.pairwise_cons, List.mem_cons, List.not_mem_nil, or_false, forall_eq_or_imp, forall_eq, List.Pairwise.nil]
    norm_num

/-- Hypotheses of `c235_refused`: a time after the end of the influent table. -/
example : ¬ Spec.Requestable [0, 60] 48 := fun h => absurd (h.1 60 (by simp)).2 (by norm_num)

end WTM
