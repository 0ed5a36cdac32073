import Mathlib.Algebra.Order.Floor.Semiring
import Verif.Props.GacColumn

/-! Property C93: the time-dependent inputs the carbon column follows. -/
set_option autoImplicit false
namespace WTM

/-- C93. The interpolation starts at the first value, ends at the second and stays between. -/
theorem c93_ends (a b : ℝ) : lerp a b 0 = a ∧ lerp a b 1 = b := by
  unfold lerp; constructor <;> ring

theorem c93_between {a b d : ℝ} (h0 : 0 ≤ d) (h1 : d ≤ 1) : min a b ≤ lerp a b d ∧ lerp a b d ≤ max a b := by
  unfold lerp
  rcases le_total a b with h | h
  · rw [min_eq_left h, max_eq_right h]; constructor <;> nlinarith
  · rw [min_eq_right h, max_eq_left h]; constructor <;> nlinarith

/-- C93. Up to the last time of the influent table no input is ever missing. -/
theorem c93_in_range {A : ℕ → ℝ} {tLast tMult tconv t : ℝ} (hm : 1 ≤ tMult) (hc : 0 < tconv) (h0 : 0 ≤ t)
    (h1 : t ≤ tLast * tconv) :
    gacSample (minutesLen tLast tMult) A tconv t =
      .ok (lerp (A ⌊t / tconv⌋₊) (A (⌊t / tconv⌋₊ + 1)) (t / tconv - ⌊t / tconv⌋₊)) := by
  have ht : t / tconv ≤ tLast := (div_le_iff₀ hc).2 h1
  have hf := Nat.floor_le (div_nonneg h0 hc.le)
  have h : ⌊t / tconv⌋₊ + 1 < minutesLen tLast tMult := by
    have h3 : ((⌊t / tconv⌋₊ + 1 : ℕ) : ℝ) < tLast + tMult * 10 := by push_cast; linarith
    exact Nat.cast_lt.1 (lt_of_lt_of_le h3 (Nat.le_ceil _))
  unfold gacSample
  simp only
  rw [if_pos h]

/-- C93. Every input used lies between its values at the two neighbouring whole minutes, and is the value
itself at a whole minute. -/
theorem c93_sample {A : ℕ → ℝ} {tLast tMult tconv t v : ℝ} (hc : 0 < tconv) (h0 : 0 ≤ t)
    (h : gacSample (minutesLen tLast tMult) A tconv t = .ok v) :
    (min (A ⌊t / tconv⌋₊) (A (⌊t / tconv⌋₊ + 1)) ≤ v ∧ v ≤ max (A ⌊t / tconv⌋₊) (A (⌊t / tconv⌋₊ + 1))) ∧
    ∀ k : ℕ, t / tconv = k → v = A k := by
  unfold gacSample at h
  simp only at h
  split at h
  · obtain rfl := Except.ok.inj h
    have hf := Nat.floor_le (div_nonneg h0 hc.le)
    have hl := Nat.lt_floor_add_one (t / tconv)
    refine ⟨c93_between (by linarith) (by linarith), fun k hk => ?_⟩
    rw [hk, Nat.floor_natCast, sub_self]
    exact (c93_ends _ _).1
  · cases h

/-- C93, full statement: until the last time the influent used is the influent table, straight lines between
its rows. -/
def InfluentIsTable : Prop :=
  ∀ (a b : ℝ × ℝ) (rest : List (ℝ × ℝ)) (tMult tconv m : ℝ), Spec.Increasing (a :: b :: rest) → a.1 = 0 →
    1 ≤ tMult → 0 < tconv → 0 ≤ m → m ≤ ((a :: b :: rest).getLast (by simp)).1 →
    ∀ c d, Spec.Segment (a :: b :: rest) c d → c.1 ≤ m → m ≤ d.1 →
    gacInfluent (a :: b :: rest) ((a :: b :: rest).getLast (by simp)).1 tMult tconv (m * tconv) =
      .ok (c.2 + (d.2 - c.2) / (d.1 - c.1) * (m - c.1))

theorem segment_last {α : Type} {tab : List (ℝ × α)} (hinc : Spec.Increasing tab) (hne : tab ≠ [])
    {c d : ℝ × α} (hs : Spec.Segment tab c d) : c.1 < d.1 ∧ d.1 ≤ (tab.getLast hne).1 := by
  obtain ⟨l, r, rfl⟩ := hs
  have h1 := (List.pairwise_append.1 hinc).2.1
  refine ⟨(List.pairwise_cons.1 h1).1 d (by simp), ?_⟩
  have e : (l ++ c :: d :: r).getLast hne = (d :: r).getLast (by simp) := by
    rw [List.getLast_append_of_ne_nil (by simp) (by simp), List.getLast_cons (by simp)]
  rw [e]
  cases r with
  | nil => simp
  | cons x r =>
    have h2 := (List.pairwise_cons.1 h1).2
    have h3 := (List.pairwise_cons.1 h2).1 ((d :: x :: r).getLast (by simp)) (by
      rw [List.getLast_cons (by simp)]; exact List.getLast_mem _)
    exact h3.le

/-- C93, what holds: tables whose times are whole minutes. Missing: rows at fractions of a minute, where the
corner is cut between the neighbouring minutes. -/
theorem c93_partial {a b : ℝ × ℝ} {rest : List (ℝ × ℝ)} {tMult tconv m : ℝ}
    (hinc : Spec.Increasing (a :: b :: rest))
    (hint : ∀ x ∈ a :: b :: rest, ∃ k : ℕ, x.1 = k)
    (hm : 1 ≤ tMult) (hc : 0 < tconv) (h1 : m ≤ ((a :: b :: rest).getLast (by simp)).1)
    {c d : ℝ × ℝ} (hs : Spec.Segment (a :: b :: rest) c d) (hcm : c.1 ≤ m) (hmd : m ≤ d.1) :
    gacInfluent (a :: b :: rest) ((a :: b :: rest).getLast (by simp)).1 tMult tconv (m * tconv) =
      .ok (c.2 + (d.2 - c.2) / (d.1 - c.1) * (m - c.1)) := by
  have hcmem : c ∈ a :: b :: rest := by obtain ⟨l, r, e⟩ := hs; rw [e]; simp
  have hdmem : d ∈ a :: b :: rest := by obtain ⟨l, r, e⟩ := hs; rw [e]; simp
  obtain ⟨kc, hkc⟩ := hint c hcmem
  obtain ⟨kd, hkd⟩ := hint d hdmem
  have hm0 : 0 ≤ m := le_trans (by rw [hkc]; positivity) hcm
  obtain ⟨hcd, hdl⟩ := segment_last hinc (by simp) hs
  unfold gacInfluent
  rw [c93_in_range hm hc (by positivity) (by nlinarith), mul_div_cancel_right₀ _ hc.ne']
  have hf := Nat.floor_le hm0
  have hl := Nat.lt_floor_add_one m
  congr 1
  have hkf : kc ≤ ⌊m⌋₊ := Nat.le_floor (by rw [← hkc]; exact hcm)
  have hcf : c.1 ≤ (⌊m⌋₊ : ℝ) := by rw [hkc]; exact_mod_cast hkf
  rw [interpExtrap_eq hinc hs hcf (by linarith)]
  rcases eq_or_lt_of_le hmd with h | h
  · have : m = kd := by rw [h, hkd]
    rw [this, Nat.floor_natCast, sub_self, (c93_ends _ _).1]
  · have h3 : ⌊m⌋₊ + 1 ≤ kd := by
      have : (⌊m⌋₊ : ℝ) < kd := by rw [← hkd]; linarith
      exact_mod_cast this
    have h4 : ((⌊m⌋₊ + 1 : ℕ) : ℝ) ≤ d.1 := by rw [hkd]; exact_mod_cast h3
    rw [interpExtrap_eq hinc hs (by push_cast; linarith) h4]
    unfold lerp
    push_cast
    ring

/-- C93 is false of the code: a step of the influent at half a minute. -/
theorem c93_false : ¬ InfluentIsTable := by
  intro h
  have hinc : Spec.Increasing [((0:ℝ), (0:ℝ)), (1/2, 0), (1, 1)] := by
    unfold Spec.Increasing; norm_num
  have h1 := h (0, 0) (1/2, 0) [(1, 1)] 1 1 (1/2) hinc rfl le_rfl one_pos (by norm_num) (by norm_num)
    (0, 0) (1/2, 0) ⟨[], [(1,1)], rfl⟩ (by norm_num) (by norm_num)
  unfold gacInfluent at h1
  rw [c93_in_range le_rfl one_pos (by norm_num) (by norm_num)] at h1
  have hz : ⌊(1 / 2 * 1 / 1 : ℝ)⌋₊ = 0 := by rw [Nat.floor_eq_zero]; norm_num
  rw [hz] at h1
  have h2 := Except.ok.inj h1
  unfold lerp at h2
  norm_num [interpExtrap] at h2

/-- A two-row table over ten days meets the hypotheses. -/
example : Spec.Increasing [((0:ℝ), (1:ℝ)), (14400, 2)] ∧
    (∀ x ∈ [((0:ℝ), (1:ℝ)), (14400, 2)], ∃ k : ℕ, x.1 = k) := by
  constructor
  · unfold Spec.Increasing; norm_num
  · intro x hx
    simp only [List.mem_cons, List.not_mem_nil, or_false] at hx
    rcases hx with rfl | rfl
    · exact ⟨0, by norm_num⟩
    · exact ⟨14400, by norm_num⟩

end WTM
