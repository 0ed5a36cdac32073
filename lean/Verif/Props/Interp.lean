import Mathlib.Tactic.Linarith
import Mathlib.Tactic.FieldSimp
import Mathlib.Tactic.NormNum
import Mathlib.Tactic.Ring
import Mathlib.Algebra.BigOperators.Fin
import Verif.Model.Interp

/-! Property C21: the influent time series. -/
set_option autoImplicit false
namespace WTM
open BigOperators

/-- Strictly increasing times. -/
def Spec.Increasing {α : Type} (tab : List (ℝ × α)) : Prop := tab.Pairwise (fun a b => a.1 < b.1)

/-- A segment of the table: two consecutive rows. -/
def Spec.Segment {α : Type} (tab : List (ℝ × α)) (a b : ℝ × α) : Prop := ∃ l r, tab = l ++ a :: b :: r

/-- On a segment the interpolation is the straight line through its end points. -/
theorem interp_segment {tab : List (ℝ × ℝ)} (hinc : Spec.Increasing tab) {a b : ℝ × ℝ}
    (hs : Spec.Segment tab a b) {t : ℝ} (h1 : a.1 ≤ t) (h2 : t ≤ b.1) :
    interpVal tab t = some (a.2 + (b.2 - a.2) / (b.1 - a.1) * (t - a.1)) := by
  obtain ⟨l, r, rfl⟩ := hs
  induction l with
  | nil =>
    simp only [List.nil_append, interpVal]
    rw [if_neg (not_lt.2 h1), if_pos h2]
  | cons c l ih =>
    have hinc' : Spec.Increasing (l ++ a :: b :: r) := (List.pairwise_cons.1 hinc).2
    have hc := (List.pairwise_cons.1 hinc).1
    have hca : c.1 < a.1 := hc a (by simp)
    have hab : a.1 < b.1 := by
      have := (List.pairwise_append.1 hinc').2.1
      exact (List.pairwise_cons.1 this).1 b (by simp)
    cases l with
    | nil =>
      simp only [List.nil_append, List.cons_append] at ih ⊢
      rw [interpVal, if_neg (by linarith)]
      by_cases hta : t ≤ a.1
      · have : t = a.1 := le_antisymm hta h1
        subst this
        rw [if_pos le_rfl, sub_self, mul_zero, add_zero, div_mul_cancel₀ _ (by linarith)]
        congr 1; ring
      · rw [if_neg hta]; exact ih hinc'
    | cons d l =>
      simp only [List.cons_append] at ih hinc' ⊢
      have hda : d.1 < a.1 := (List.pairwise_cons.1 hinc').1 a (by simp)
      rw [interpVal, if_neg (by linarith), if_neg (by linarith)]
      exact ih hinc'

/-- A table value exists exactly on the range from the first to the last time. -/
theorem interp_isSome {tab : List (ℝ × ℝ)} {a b : ℝ × ℝ} {r : List (ℝ × ℝ)} (htab : tab = a :: b :: r)
    (hinc : Spec.Increasing tab) (t : ℝ) :
    (interpVal tab t).isSome ↔ a.1 ≤ t ∧ t ≤ (tab.getLast (by simp [htab])).1 := by
  subst htab
  induction r generalizing a b with
  | nil =>
    simp only [interpVal, List.getLast_cons_cons, List.getLast_singleton]
    split
    · simp; intro; linarith
    · split
      · simp; constructor <;> linarith
      · simp; intro; linarith
  | cons c r ih =>
    have hab : a.1 < b.1 := (List.pairwise_cons.1 hinc).1 b (by simp)
    have hlast : b.1 ≤ ((b :: c :: r).getLast (by simp)).1 := by
      have hmem : (b :: c :: r).getLast (by simp) ∈ (c :: r) := by
        rw [List.getLast_cons (by simp)]; exact List.getLast_mem _
      exact le_of_lt ((List.pairwise_cons.1 (List.pairwise_cons.1 hinc).2).1 _ hmem)
    rw [List.getLast_cons (by simp)]
    rw [interpVal]
    split
    · simp; intro; linarith
    · split
      · simp; constructor
        · linarith
        · exact le_trans ‹_› hlast
      · rw [ih (List.pairwise_cons.1 hinc).2]
        constructor
        · rintro ⟨h1, h2⟩; exact ⟨by linarith, h2⟩
        · rintro ⟨h1, h2⟩; exact ⟨by linarith, h2⟩

variable {n : ℕ} {tab : List (ℝ × (Fin n → ℝ))}

theorem scaled_inc {s : ℝ} (hs : 0 < s) (hinc : Spec.Increasing tab) (f : (Fin n → ℝ) → ℝ) :
    Spec.Increasing (tab.map (fun r => (r.1 * s, f r.2))) := by
  unfold Spec.Increasing at *
  rw [List.pairwise_map]
  exact hinc.imp (fun h => mul_lt_mul_of_pos_right h hs)

theorem scaled_segment {s : ℝ} {a b : ℝ × (Fin n → ℝ)} (f : (Fin n → ℝ) → ℝ)
    (h : Spec.Segment tab a b) :
    Spec.Segment (tab.map (fun r => (r.1 * s, f r.2))) (a.1 * s, f a.2) (b.1 * s, f b.2) := by
  obtain ⟨l, r, rfl⟩ := h
  exact ⟨l.map (fun r => (r.1 * s, f r.2)), r.map (fun r => (r.1 * s, f r.2)), by simp⟩

/-- The straight line between two rows, in sheet time, whatever the time scale. -/
theorem getCin_segment {s : ℝ} (hs : 0 < s) (hinc : Spec.Increasing tab) {a b : ℝ × (Fin n → ℝ)}
    (hseg : Spec.Segment tab a b) {t : ℝ} (h1 : a.1 ≤ t) (h2 : t ≤ b.1) (i : Fin n) :
    getCin tab s (t * s) i = some (a.2 i + (b.2 i - a.2 i) * ((t - a.1) / (b.1 - a.1))) := by
  have hab : a.1 < b.1 := by
    obtain ⟨l, r, rfl⟩ := hseg
    exact (List.pairwise_cons.1 (List.pairwise_append.1 hinc).2.1).1 b (by simp)
  unfold getCin
  rw [interp_segment (scaled_inc hs hinc (fun c => c i)) (scaled_segment (fun c => c i) hseg)
    (by exact mul_le_mul_of_nonneg_right h1 hs.le) (by exact mul_le_mul_of_nonneg_right h2 hs.le)]
  congr 2
  simp only
  rw [← sub_mul, ← sub_mul]
  have : b.1 - a.1 ≠ 0 := by linarith
  have := hs.ne'
  field_simp

/-- C21. At a tabulated time the influent is the tabulated value. -/
theorem c21_tabulated {s : ℝ} (hs : 0 < s) (hinc : Spec.Increasing tab) (hlen : 2 ≤ tab.length)
    {r : ℝ × (Fin n → ℝ)} (hr : r ∈ tab) (i : Fin n) : getCin tab s (r.1 * s) i = some (r.2 i) := by
  obtain ⟨l, m, rfl⟩ := List.append_of_mem hr
  cases m with
  | cons b m =>
    rw [getCin_segment hs hinc (a := r) (b := b) ⟨l, m, rfl⟩ le_rfl]
    · simp
    · exact le_of_lt ((List.pairwise_cons.1 (List.pairwise_append.1 hinc).2.1).1 b (by simp))
  | nil =>
    rcases List.eq_nil_or_concat l with rfl | ⟨l', a, rfl⟩
    · simp at hlen
    · have hab : a.1 < r.1 := (List.pairwise_append.1 hinc).2.2 a (by simp) r (by simp)
      rw [getCin_segment hs hinc (a := a) (b := r) ⟨l', [], by simp⟩ hab.le le_rfl,
        div_self (by linarith), mul_one]
      congr 1; ring

/-- C21. Between two consecutive tabulated times the influent lies between the two values. -/
theorem c21_between {s : ℝ} (hs : 0 < s) (hinc : Spec.Increasing tab) {a b : ℝ × (Fin n → ℝ)}
    (hseg : Spec.Segment tab a b) {t : ℝ} (h1 : a.1 ≤ t) (h2 : t ≤ b.1) (i : Fin n) :
    ∃ v, getCin tab s (t * s) i = some v ∧ min (a.2 i) (b.2 i) ≤ v ∧ v ≤ max (a.2 i) (b.2 i) := by
  refine ⟨_, getCin_segment hs hinc hseg h1 h2 i, ?_⟩
  have hab : a.1 < b.1 := by
    obtain ⟨l, r, rfl⟩ := hseg
    exact (List.pairwise_cons.1 (List.pairwise_append.1 hinc).2.1).1 b (by simp)
  have hpos : 0 < b.1 - a.1 := by linarith
  have hw0 : 0 ≤ (t - a.1) / (b.1 - a.1) := div_nonneg (by linarith) hpos.le
  have hw1 : (t - a.1) / (b.1 - a.1) ≤ 1 := (div_le_one hpos).2 (by linarith)
  set w := (t - a.1) / (b.1 - a.1)
  rcases le_total (a.2 i) (b.2 i) with h | h
  · rw [min_eq_left h, max_eq_right h]
    constructor <;> nlinarith
  · rw [min_eq_right h, max_eq_left h]
    constructor <;> nlinarith

/-- C21. Times outside the table are refused, times inside are not. -/
theorem c21_range {s : ℝ} (hs : 0 < s) (hinc : Spec.Increasing tab) {a b : ℝ × (Fin n → ℝ)}
    {r : List (ℝ × (Fin n → ℝ))} (htab : tab = a :: b :: r) (t : ℝ) (i : Fin n) :
    getCin tab s (t * s) i = none ↔ t < a.1 ∨ (tab.getLast (by simp [htab])).1 < t := by
  subst htab
  have h := interp_isSome (tab := (a :: b :: r).map (fun r => (r.1 * s, r.2 i)))
    (a := (a.1 * s, a.2 i)) (b := (b.1 * s, b.2 i)) (r := r.map (fun r => (r.1 * s, r.2 i)))
    (by simp) (scaled_inc hs hinc (fun c => c i)) (t * s)
  rw [List.getLast_map] at h
  simp only [mul_le_mul_iff_left₀ hs] at h
  have e : getCin (a :: b :: r) s (t * s) i =
      interpVal ((a :: b :: r).map (fun r => (r.1 * s, r.2 i))) (t * s) := rfl
  rw [e, ← Option.not_isSome_iff_eq_none, h, not_and_or, not_le, not_le]

/-- C21. The total influent interpolates the tabulated totals. -/
theorem c21_total {s : ℝ} (T : ℝ) {v : Fin n → ℝ} (hn : 0 < n)
    (hv : ∀ i, getCin tab s T i = some (v i)) :
    interpVal (tab.map (fun r => (r.1 * s, ∑ i, r.2 i))) T = some (∑ i, v i) := by
  unfold getCin at hv
  induction tab with
  | nil => have := hv ⟨0, hn⟩; simp [interpVal] at this
  | cons a tab ih =>
    cases tab with
    | nil => have := hv ⟨0, hn⟩; simp [interpVal] at this
    | cons b r =>
      simp only [List.map_cons, interpVal] at hv ih ⊢
      by_cases h1 : T < a.1 * s
      · have := hv ⟨0, hn⟩; simp [h1] at this
      · simp only [if_neg h1] at hv ⊢
        by_cases h2 : T ≤ b.1 * s
        · simp only [if_pos h2, Option.some.injEq] at hv ⊢
          simp only [← hv]
          rw [Finset.sum_add_distrib, ← Finset.sum_sub_distrib, ← Finset.sum_mul]
          congr 2
          rw [div_eq_mul_inv, Finset.sum_mul]
          exact Finset.sum_congr rfl (fun i _ => by rw [div_eq_mul_inv])
        · simp only [if_neg h2] at hv ⊢
          exact ih hv

/-- C21. With a constant influent every time gets the first row. -/
theorem c21_const {r : ℝ × (Fin n → ℝ)} {rest : List (ℝ × (Fin n → ℝ))} (i : Fin n) :
    getCinConst (r :: rest) i = some (r.2 i) := rfl

/-- A table meeting the hypotheses: two ions, three times. -/
example : Spec.Increasing [(0, ![1, 2]), (5, ![3, 0]), (7, ![(1 : ℝ), 1])] ∧
    Spec.Segment [(0, ![1, 2]), (5, ![3, 0]), (7, ![(1 : ℝ), 1])] (5, ![3, 0]) (7, ![1, 1]) := by
  refine ⟨?_, [(0, ![1, 2])], [], rfl⟩
  simp [Spec.Increasing]; norm_num

end WTM
