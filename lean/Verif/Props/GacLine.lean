import Verif.Props.GacCapacity

/-! C213: the straight line behind a breakthrough time when search and logistic fit find none. -/
set_option autoImplicit false
namespace WTM

/-- Specification: at time `t` the straight line through two samples has the value `v`. -/
def Spec.OnLine (a b : ℝ × ℝ) (t v : ℝ) : Prop := (v - a.2) * (b.1 - a.1) = (b.2 - a.2) * (t - a.1)

/-- Specification: the search over days and the logistic fit found nothing. -/
structure Spec.NoBreak (i : CapIn) (fit : Option (ℝ × ℝ × ℝ)) : Prop where
  some : (i.effl.map Prod.snd).sum ≠ 0
  several : (i.effl.map Prod.snd).countP (fun x => decide (x ≠ 0)) ≠ 1
  search : capSearch i = none
  logistic : (capLogistic i fit).found = false

theorem capFind_line {i : CapIn} {fit : Option (ℝ × ℝ × ℝ)} {reg : Option (ℝ × ℝ)} (h : Spec.NoBreak i fit) :
    capFind i fit reg = capLinear i (capLogistic i fit) (capLine i reg) := by
  unfold capFind
  rw [if_neg (not_or.2 ⟨h.some, h.several⟩), h.search]
  simp only
  rw [if_neg (by rw [h.logistic]; simp)]

/-- C213. The line leads from zero at the time of the last sample but one through the last sample, when that reaches a quarter
of the average influent; its time at the average is rounded to a whole day. -/
theorem c213_point {i : CapIn} {fit : Option (ℝ × ℝ × ℝ)} {reg : Option (ℝ × ℝ)} (h : Spec.NoBreak i fit)
    {l : List (ℝ × ℝ)} {a b : ℝ × ℝ} (he : i.effl = l ++ [a, b]) (hab : a.1 < b.1) (hb : 0 < b.2)
    (h4 : 0.25 * i.aveC ≤ b.2) (hA : 0 < i.aveC) :
    (capFind i fit reg).code = "linear, single point" ∧ ∃ T, Spec.OnLine (a.1, 0) b T i.aveC ∧
      (capFind i fit reg).time = if npRound T ≤ 0 then lastPos i.effl else npRound T := by
  rw [capFind_line h]
  have hl : capLine i reg = some ((b.2 / (b.1 - a.1), -b.2 * a.1 / (b.1 - a.1)), "linear, single point") := by
    unfold capLine
    rw [he]
    simp only [List.reverse_append, List.reverse_cons, List.reverse_nil, List.nil_append, List.cons_append]
    rw [if_pos ⟨hb, (le_div_iff₀ hA).2 h4⟩]
  rw [hl]
  have hd : b.1 - a.1 ≠ 0 := (sub_pos.2 hab).ne'
  refine ⟨rfl, (i.aveC - -b.2 * a.1 / (b.1 - a.1)) / (b.2 / (b.1 - a.1)), ?_, rfl⟩
  unfold Spec.OnLine
  simp only
  have := hb.ne'
  field_simp
  ring

/-- C213. A last sample under a quarter of the average leaves the regression. -/
theorem c213_regression {i : CapIn} {fit : Option (ℝ × ℝ × ℝ)} (h : Spec.NoBreak i fit)
    {l : List (ℝ × ℝ)} {a b : ℝ × ℝ} (he : i.effl = l ++ [a, b]) (hA : 0 < i.aveC) (h4 : b.2 ≤ 0 ∨ b.2 < 0.25 * i.aveC)
    (slope intercept : ℝ) (hs : slope ≠ 0) :
    (capFind i fit (some (slope, intercept))).code = "linear regression" ∧ ∃ T, intercept + slope * T = i.aveC ∧
      (capFind i fit (some (slope, intercept))).time = if npRound T ≤ 0 then lastPos i.effl else npRound T := by
  rw [capFind_line h]
  have hl : capLine i (some (slope, intercept)) = some ((slope, intercept), "linear regression") := by
    unfold capLine
    rw [he]
    simp only [List.reverse_append, List.reverse_cons, List.reverse_nil, List.nil_append, List.cons_append]
    rw [if_neg]
    · rfl
    · rintro ⟨h1, h2⟩
      rw [le_div_iff₀ hA] at h2
      rcases h4 with h4 | h4 <;> linarith
  rw [hl]
  refine ⟨rfl, (i.aveC - intercept) / slope, ?_, rfl⟩
  rw [mul_div_cancel₀ _ hs]
  ring

/-- C213, in full: the comment of the code has the line run through the last and the second to last sample. -/
def C213 : Prop := ∀ (i : CapIn) (fit : Option (ℝ × ℝ × ℝ)) (reg : Option (ℝ × ℝ)) (l : List (ℝ × ℝ)) (a b : ℝ × ℝ),
  Spec.NoBreak i fit → i.effl = l ++ [a, b] → a.1 < b.1 → 0 < b.2 → a.2 < b.2 → 0.25 * i.aveC ≤ b.2 → 0 < i.aveC →
  ∃ T, Spec.OnLine a b T i.aveC ∧
    (capFind i fit reg).time = if npRound T ≤ 0 then lastPos i.effl else npRound T

/-- It does when the second to last sample holds nothing. -/
theorem c213_partial {i : CapIn} {fit : Option (ℝ × ℝ × ℝ)} {reg : Option (ℝ × ℝ)} {l : List (ℝ × ℝ)} {a b : ℝ × ℝ}
    (h : Spec.NoBreak i fit) (he : i.effl = l ++ [a, b]) (hab : a.1 < b.1) (hb : 0 < b.2)
    (h4 : 0.25 * i.aveC ≤ b.2) (hA : 0 < i.aveC) (ha : a.2 = 0) :
    ∃ T, Spec.OnLine a b T i.aveC ∧ (capFind i fit reg).time = if npRound T ≤ 0 then lastPos i.effl else npRound T := by
  obtain ⟨-, T, hT, ht⟩ := c213_point (reg := reg) h he hab hb h4 hA
  refine ⟨T, ?_, ht⟩
  have : a = (a.1, 0) := Prod.ext rfl ha
  rwa [this]

/-- Three samples of an effluent at a tenth of the influent on day 10 and `v` on day 20. -/
noncomputable def exLine (v : ℝ) : CapIn := ⟨[(0, 10, 0), (10, 10, 1), (20, 10, v)], 20, 1, 1, 1, 1, 1, 1⟩

theorem exLine_ave (v : ℝ) : (exLine v).aveC = 10 := by
  norm_num [CapIn.aveC, meanOf, CapIn.infl, exLine]

theorem exLine_no {v : ℝ} (h0 : 0 < v) (h1 : v < 10) : Spec.NoBreak (exLine v) none := by
  refine ⟨?_, ?_, ?_, rfl⟩
  · have : (1 : ℝ) + v ≠ 0 := by linarith
    simpa [CapIn.effl, exLine] using this
  · norm_num [CapIn.effl, exLine, List.countP_cons, h0.ne']
  · unfold capSearch
    simp only
    rw [if_neg]
    rintro ⟨e, he, c, hc, hle⟩
    simp only [CapIn.effl, exLine, List.map_cons, List.map_nil, List.mem_cons, List.not_mem_nil, or_false] at he
    simp only [CapIn.infl, exLine, List.map_cons, List.map_nil, List.mem_cons, List.not_mem_nil, or_false] at hc
    rcases he with rfl | rfl | rfl <;> rcases hc with rfl | rfl | rfl <;> norm_num at hle <;> linarith

theorem npRound_nat (n : ℕ) : npRound n = n := by
  unfold npRound
  simp

/-- C213 is false: the line through both samples reaches the average on day 40, the one used on day 35. -/
theorem c213_false : ¬ C213 := by
  intro h
  have he : (exLine 4).effl = [(0, 0)] ++ [(10, 1), (20, 4)] := rfl
  obtain ⟨T, hT, ht⟩ := h (exLine 4) none none [(0, 0)] (10, 1) (20, 4) (exLine_no (by norm_num) (by norm_num)) he (by norm_num) (by norm_num) (by norm_num)
    (by rw [exLine_ave]; norm_num) (by rw [exLine_ave]; norm_num)
  obtain ⟨-, T', hT', ht'⟩ := c213_point (reg := none) (exLine_no (by norm_num) (by norm_num)) he (by norm_num) (by norm_num)
    (by rw [exLine_ave]; norm_num) (by rw [exLine_ave]; norm_num)
  rw [ht'] at ht
  unfold Spec.OnLine at hT hT'
  rw [exLine_ave] at hT hT'
  simp only at hT hT'
  have e1 : T = (40 : ℕ) := by push_cast; linarith
  have e2 : T' = (35 : ℕ) := by push_cast; linarith
  rw [e1, e2, npRound_nat, npRound_nat] at ht
  norm_num at ht

/-- With two tenths on day 20 the regression is used. -/
example : Spec.NoBreak (exLine 2) none ∧ (exLine 2).effl = [(0, 0)] ++ [(10, 1), (20, 2)] ∧ 0 < (exLine 2).aveC ∧
    (2 : ℝ) < 0.25 * (exLine 2).aveC := by
  refine ⟨exLine_no (by norm_num) (by norm_num), rfl, ?_, ?_⟩ <;> rw [exLine_ave] <;> norm_num

end WTM
