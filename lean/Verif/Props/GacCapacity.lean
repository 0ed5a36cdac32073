import Mathlib.Tactic
import Verif.Model.GacCapacity
import Verif.Model.GacColumn
import Verif.Props.Tools

/-! C123-C127: the capacity estimated from measured influent and effluent. -/
set_option autoImplicit false
namespace WTM
noncomputable section
open MeasureTheory

/-! ### Lemmas -/

theorem segment_range {a b : ℝ × ℝ} (hab : a.1 < b.1) {t lo hi : ℝ} (h1 : a.1 ≤ t) (h2 : t ≤ b.1)
    (ha : lo ≤ a.2 ∧ a.2 ≤ hi) (hb : lo ≤ b.2 ∧ b.2 ≤ hi) :
    lo ≤ a.2 + (b.2 - a.2) / (b.1 - a.1) * (t - a.1) ∧ a.2 + (b.2 - a.2) / (b.1 - a.1) * (t - a.1) ≤ hi := by
  have hpos : 0 < b.1 - a.1 := by linarith
  have hw0 : 0 ≤ (t - a.1) / (b.1 - a.1) := div_nonneg (by linarith) hpos.le
  have hw1 : (t - a.1) / (b.1 - a.1) ≤ 1 := (div_le_one hpos).2 (by linarith)
  have e : a.2 + (b.2 - a.2) / (b.1 - a.1) * (t - a.1) =
      a.2 * (1 - (t - a.1) / (b.1 - a.1)) + b.2 * ((t - a.1) / (b.1 - a.1)) := by field_simp; ring
  rw [e]
  generalize (t - a.1) / (b.1 - a.1) = w at hw0 hw1
  constructor <;> nlinarith [ha.1, ha.2, hb.1, hb.2]

/-- Within the table the interpolation stays within the values. -/
theorem interpExtrap_range {lo hi t : ℝ} : ∀ {a : ℝ × ℝ} {l : List (ℝ × ℝ)}, Spec.Increasing (a :: l) → l ≠ [] →
    (∀ r ∈ a :: l, lo ≤ r.2 ∧ r.2 ≤ hi) → a.1 ≤ t → (∃ r ∈ a :: l, t ≤ r.1) →
    lo ≤ interpExtrap (a :: l) t ∧ interpExtrap (a :: l) t ≤ hi
  | _, [], _, h, _, _, _ => absurd rfl h
  | a, [b], hinc, _, hv, h1, ⟨r, hr, h2⟩ => by
    have hab : a.1 < b.1 := (List.pairwise_cons.1 hinc).1 b (by simp)
    have htb : t ≤ b.1 := by
      simp only [List.mem_cons, List.not_mem_nil, or_false] at hr
      rcases hr with rfl | rfl
      · linarith
      · exact h2
    exact segment_range hab h1 htb (hv a (by simp)) (hv b (by simp))
  | a, b :: c :: l, hinc, _, hv, h1, ⟨r, hr, h2⟩ => by
    have hab : a.1 < b.1 := (List.pairwise_cons.1 hinc).1 b (by simp)
    rw [interpExtrap]
    by_cases h : t ≤ b.1
    · rw [if_pos h]
      exact segment_range hab h1 h (hv a (by simp)) (hv b (by simp))
    · rw [if_neg h]
      refine interpExtrap_range (List.pairwise_cons.1 hinc).2 (by simp) (fun r hr => hv r (List.mem_cons_of_mem _ hr))
        (not_le.1 h).le ⟨r, ?_, h2⟩
      rcases List.mem_cons.1 hr with rfl | hr
      · linarith
      · exact hr

theorem interpExtrap_node {l : List (ℝ × ℝ)} (hinc : Spec.Increasing l) (hlen : 2 ≤ l.length) {r : ℝ × ℝ} (hr : r ∈ l) :
    interpExtrap l r.1 = r.2 := by
  obtain ⟨p, q, rfl⟩ := List.append_of_mem hr
  rcases q with _ | ⟨b, q⟩
  · rcases List.eq_nil_or_concat p with rfl | ⟨p', a, rfl⟩
    · simp at hlen
    · simp only [List.concat_eq_append] at hinc ⊢
      have hab : a.1 < r.1 := by
        have := (List.pairwise_append.1 hinc).2.2 a (by simp) r (by simp); exact this
      have hs : Spec.Segment (p' ++ [a] ++ [r]) a r := ⟨p', [], by simp⟩
      rw [interpExtrap_eq hinc hs hab.le le_rfl, div_mul_cancel₀ _ (by linarith : r.1 - a.1 ≠ 0)]
      ring
  · have hs : Spec.Segment (p ++ r :: b :: q) r b := ⟨p, q, rfl⟩
    have hrb : r.1 < b.1 := (List.pairwise_cons.1 (List.pairwise_append.1 hinc).2.1).1 b (by simp)
    rw [interpExtrap_eq hinc hs le_rfl hrb.le]
    ring

theorem npRound_near (x : ℝ) : |npRound x - x| ≤ 1 / 2 := by
  have h1 := Int.floor_le x
  have h2 := Int.lt_floor_add_one x
  simp only [npRound]
  split_ifs with a b c <;> rw [abs_le] <;> constructor <;> linarith

theorem npRound_int (x : ℝ) : ∃ z : ℤ, npRound x = z := by
  simp only [npRound]
  split_ifs
  exacts [⟨_, rfl⟩, ⟨⌊x⌋ + 1, by push_cast; rfl⟩, ⟨_, rfl⟩, ⟨⌊x⌋ + 1, by push_cast; rfl⟩]

theorem mem_capDays {d t : ℝ} : t ∈ capDays d ↔ ∃ k : ℕ, (k : ℝ) = t ∧ (k : ℝ) < d + 1 := by
  simp only [capDays, List.mem_map, List.mem_range, Nat.lt_ceil]
  exact ⟨fun ⟨k, h1, h2⟩ => ⟨k, h2, h1⟩, fun ⟨k, h1, h2⟩ => ⟨k, h2, h1⟩⟩

/-! ### Specification -/

/-- A data set the estimate is meant for: times from zero in increasing order, two or more, the last one is the
duration, nothing negative. -/
structure Spec.CapData (i : CapIn) : Prop where
  sorted : i.rows.Pairwise fun a b => a.1 < b.1
  start : ∃ a b l, i.rows = a :: b :: l ∧ a.1 = 0
  last : i.duration ∈ i.rows.map Prod.fst ∧ ∀ r ∈ i.rows, r.1 ≤ i.duration
  nonneg : ∀ r ∈ i.rows, 0 ≤ r.2.1 ∧ 0 ≤ r.2.2

/-- More than one effluent sample is not zero. -/
def Spec.TwoSamples (i : CapIn) : Prop :=
  ∃ a ∈ i.rows, ∃ b ∈ i.rows, a.1 ≠ b.1 ∧ 0 < a.2.2 ∧ 0 < b.2.2

variable {i : CapIn} {fit : Option (ℝ × ℝ × ℝ)} {reg : Option (ℝ × ℝ)}

theorem Spec.CapData.infl_inc (h : Spec.CapData i) : Spec.Increasing i.infl := List.Pairwise.map _ (fun _ _ h => h) h.sorted
theorem Spec.CapData.effl_inc (h : Spec.CapData i) : Spec.Increasing i.effl := List.Pairwise.map _ (fun _ _ h => h) h.sorted

theorem infl_pos (h : Spec.CapData i) {r : ℝ × ℝ} (hr : r ∈ i.infl) : 0 < r.2 := by
  obtain ⟨x, hx, rfl⟩ := List.mem_map.1 hr
  simp only
  split_ifs with h0
  · norm_num
  · exact lt_of_le_of_ne (h.nonneg x hx).1 (Ne.symm h0)

theorem duration_pos (h : Spec.CapData i) : 0 < i.duration := by
  obtain ⟨a, b, l, e, ha⟩ := h.start
  have := h.sorted
  rw [e] at this
  have hab := (List.pairwise_cons.1 this).1 b (by simp)
  have := h.last.2 b (by rw [e]; simp)
  linarith

/-! ### C123 -/

theorem calc_eq : calcCapacity i fit reg = capResult i (capFind i fit reg) := rfl

/-- C123. The loading is the mass balance: influent less effluent, between zero and the breakthrough time, times the
flow, in micrograms per gram; at least a millionth. -/
theorem c123_balance (hw : i.wt ≠ 0) : let o := calcCapacity i fit reg
    let s := capFind i fit reg
    let m := i.flrt * i.flowMult * i.tMult * i.massMul *
      ((∫ t in (0 : ℝ)..o.brk, interpExtrap s.infl t) - ∫ t in (0 : ℝ)..o.brk, interpExtrap s.effl t)
    (o.q * i.wt = m ∨ (s.found = true ∧ o.q = 1 / 1000000 ∧ m / i.wt ≤ 1 / 1000000)) := by
  intro o s m
  have ho : o = capResult i s := rfl
  have hm : ((∫ t in (0 : ℝ)..capClean s, interpExtrap s.infl t) - ∫ t in (0 : ℝ)..capClean s, interpExtrap s.effl t) *
      i.flow * i.massMul / i.wt = m / i.wt := by
    simp only [m, ho, capResult, CapIn.flow]; ring
  have hq : o.q = if s.found ∧ m / i.wt ≤ 1e-6 then 1e-6 else m / i.wt := by rw [ho, ← hm]; rfl
  by_cases h : s.found = true ∧ m / i.wt ≤ 1e-6
  · right
    rw [if_pos h] at hq
    exact ⟨h.1, by rw [hq]; norm_num, h.2.trans (by norm_num)⟩
  · left
    rw [if_neg h] at hq
    rw [hq, div_mul_cancel₀ _ hw]

/-- C123. The average concentration is that of the influent curve on the whole days up to breakthrough. -/
theorem c123_average : let o := calcCapacity i fit reg
    o.aveC = meanOf (((capDays i.duration).filter fun t => t ≤ o.brk).map (interpExtrap (capFind i fit reg).infl)) := rfl

theorem xnGrid_inc {g : ℝ → ℝ} : Spec.Increasing (xnGrid.map fun x => (x, g x)) := by
  unfold Spec.Increasing xnGrid
  rw [List.map_map, List.pairwise_map]
  refine List.pairwise_lt_range.imp fun {a b} h => ?_
  have : (a : ℝ) < b := by exact_mod_cast h
  simp only [Function.comp]
  linarith

/-- C123. `K` gives the loading back at the average concentration; so does the tabulated `K` for every 1/n of the
table, and it is the one `recalc_k` gives. -/
theorem c123_freundlich (hc : 0 < (calcCapacity i fit reg).aveC * i.massMul) : let o := calcCapacity i fit reg
    o.k * (o.aveC * i.massMul) ^ i.xn = o.q ∧
    ∀ x ∈ xnGrid, o.kFun x * (o.aveC * i.massMul) ^ x = o.q ∧
      (0 < o.q → i.xn ≠ 0 → o.kFun x = recalcK o.k o.q i.xn x) := by
  intro o
  have ho : o = capResult i (capFind i fit reg) := rfl
  have hk : o.k = o.q / (o.aveC * i.massMul) ^ i.xn := rfl
  have hc' : 0 < o.aveC * i.massMul := hc
  refine ⟨by rw [hk, div_mul_cancel₀ _ (Real.rpow_pos_of_pos hc' _).ne'], fun x hx => ?_⟩
  have hkt : o.kTab = xnGrid.map fun x => (x, o.q / (o.aveC * i.massMul) ^ x) := rfl
  have hf : o.kFun x = o.q / (o.aveC * i.massMul) ^ x := by
    rw [CapOut.kFun, hkt]
    exact interpExtrap_node (r := (x, o.q / (o.aveC * i.massMul) ^ x)) xnGrid_inc (by simp [xnGrid])
      (List.mem_map.2 ⟨x, hx, rfl⟩)
  refine ⟨by rw [hf, div_mul_cancel₀ _ (Real.rpow_pos_of_pos hc' _).ne'], fun hq hn => ?_⟩
  rw [hf, recalcK, hk, Real.div_rpow hq.le (Real.rpow_nonneg hc'.le _), ← Real.rpow_mul hc'.le,
    mul_div_cancel₀ _ hn, ← mul_div_assoc, ← Real.rpow_add hq]
  norm_num

/-- The tabulated exponents: from 0.15 to 1 in steps of 0.01. -/
theorem c123_grid {x : ℝ} : x ∈ xnGrid ↔ ∃ k : ℕ, k ≤ 85 ∧ x = 0.15 + k / 100 := by
  unfold xnGrid
  rw [List.mem_map]
  constructor
  · rintro ⟨k, hk, rfl⟩
    exact ⟨k, by have := List.mem_range.1 hk; omega, by ring⟩
  · rintro ⟨k, hk, rfl⟩
    exact ⟨k, List.mem_range.2 (by omega), by ring⟩

example : (0.45 : ℝ) ∈ xnGrid := List.mem_map.2 ⟨30, by simp, by norm_num⟩

/-! ### The search -/

theorem find_capDays {D : ℝ} {P : ℝ → Bool} {d : ℕ} (hd : (d : ℝ) < D + 1) (hP : P d = true)
    (hf : ∀ k : ℕ, k < d → P k = false) : (capDays D).find? P = some (d : ℝ) := by
  unfold capDays
  rw [List.find?_map]
  have : (List.range ⌈D + 1⌉₊).find? (P ∘ fun k : ℕ => (k : ℝ)) = some d := by
    rw [List.find?_range_eq_some]
    exact ⟨hP, by rw [List.mem_range, Nat.lt_ceil]; exact hd, fun j hj => by simp [hf j hj]⟩
  rw [this]; rfl

theorem exists_max_snd {l : List (ℝ × ℝ)} (hl : l ≠ []) : ∃ m ∈ l, ∀ r ∈ l, r.2 ≤ m.2 := by
  classical
  obtain ⟨m, hm, h⟩ := Finset.exists_max_image l.toFinset Prod.snd
    (by obtain ⟨x, hx⟩ := List.exists_mem_of_ne_nil l hl; exact ⟨x, List.mem_toFinset.2 hx⟩)
  exact ⟨m, List.mem_toFinset.1 hm, fun r hr => h r (List.mem_toFinset.2 hr)⟩

theorem exists_min_snd {l : List (ℝ × ℝ)} (hl : l ≠ []) : ∃ m ∈ l, ∀ r ∈ l, m.2 ≤ r.2 := by
  classical
  obtain ⟨m, hm, h⟩ := Finset.exists_min_image l.toFinset Prod.snd
    (by obtain ⟨x, hx⟩ := List.exists_mem_of_ne_nil l hl; exact ⟨x, List.mem_toFinset.2 hx⟩)
  exact ⟨m, List.mem_toFinset.1 hm, fun r hr => h r (List.mem_toFinset.2 hr)⟩

/-- A table of the data: first time zero, another time, and the duration. -/
theorem data_tab (h : Spec.CapData i) (g : ℝ × ℝ × ℝ → ℝ) : ∃ a l, (i.rows.map fun r => (r.1, g r)) = a :: l ∧
    l ≠ [] ∧ a.1 = 0 ∧ Spec.Increasing (a :: l) ∧ ∃ r ∈ a :: l, r.1 = i.duration := by
  obtain ⟨a, b, l, e, ha⟩ := h.start
  refine ⟨(a.1, g a), (b :: l).map fun r => (r.1, g r), by rw [e]; rfl, by simp, ha, ?_, ?_⟩
  · have : Spec.Increasing (i.rows.map fun r => (r.1, g r)) := List.Pairwise.map _ (fun _ _ h => h) h.sorted
    rw [e] at this; exact this
  · obtain ⟨x, hx, hd⟩ := List.mem_map.1 h.last.1
    rw [e] at hx
    exact ⟨(x.1, g x), List.mem_map (f := fun r : ℝ × ℝ × ℝ => (r.1, g r)) (l := a :: b :: l) |>.2 ⟨x, hx, rfl⟩, hd⟩

theorem data_range (h : Spec.CapData i) (g : ℝ × ℝ × ℝ → ℝ) {lo hi t : ℝ}
    (hv : ∀ r ∈ i.rows.map (fun r => (r.1, g r)), lo ≤ r.2 ∧ r.2 ≤ hi) (h0 : 0 ≤ t) (ht : t ≤ i.duration) :
    lo ≤ interpExtrap (i.rows.map fun r => (r.1, g r)) t ∧ interpExtrap (i.rows.map fun r => (r.1, g r)) t ≤ hi := by
  obtain ⟨a, l, e, hl, ha, hinc, r, hr, hd⟩ := data_tab h g
  rw [e] at hv ⊢
  exact interpExtrap_range hinc hl hv (by rw [ha]; exact h0) ⟨r, hr, by rw [hd]; exact ht⟩

/-- If the curves meet within the data, some effluent value is not under some influent value. -/
theorem guard_of_cross (h : Spec.CapData i) {t : ℝ} (h0 : 0 ≤ t) (ht : t ≤ i.duration)
    (hx : interpExtrap i.infl t ≤ interpExtrap i.effl t) : ∃ e ∈ i.effl, ∃ c ∈ i.infl, c.2 ≤ e.2 := by
  obtain ⟨a, b, l, e, -⟩ := h.start
  obtain ⟨M, hM, hMx⟩ := exists_max_snd (l := i.effl) (by rw [CapIn.effl, e]; simp)
  obtain ⟨m, hm, hmn⟩ := exists_min_snd (l := i.infl) (by rw [CapIn.infl, e]; simp)
  obtain ⟨n, hn, hnn⟩ := exists_min_snd (l := i.effl) (by rw [CapIn.effl, e]; simp)
  obtain ⟨N, hN, hNx⟩ := exists_max_snd (l := i.infl) (by rw [CapIn.infl, e]; simp)
  have h1 : interpExtrap i.effl t ≤ M.2 := (data_range h (fun r => r.2.2) (fun r hr => ⟨hnn r hr, hMx r hr⟩) h0 ht).2
  have h2 : m.2 ≤ interpExtrap i.infl t := (data_range h _ (fun r hr => ⟨hmn r hr, hNx r hr⟩) h0 ht).1
  exact ⟨M, hM, m, hm, by linarith⟩

theorem not_minimum (h : Spec.CapData i) (h2 : Spec.TwoSamples i) :
    ¬ ((i.effl.map Prod.snd).sum = 0 ∨ (i.effl.map Prod.snd).countP (fun x => decide (x ≠ 0)) = 1) := by
  obtain ⟨a, ha, b, hb, hne, ha0, hb0⟩ := h2
  have hm : i.effl.map Prod.snd = i.rows.map fun r => r.2.2 := by simp [CapIn.effl]
  rw [hm]
  rintro (hs | hc)
  · have h0 : ∀ x ∈ i.rows.map (fun r => r.2.2), 0 ≤ x := by
      intro x hx; obtain ⟨r, hr, rfl⟩ := List.mem_map.1 hx; exact (h.nonneg r hr).2
    have := List.single_le_sum h0 a.2.2 (List.mem_map.2 ⟨a, ha, rfl⟩)
    linarith
  · obtain ⟨p, q, e⟩ := List.append_of_mem ha
    have hb' : b ∈ p ∨ b ∈ q := by
      rw [e, List.mem_append, List.mem_cons] at hb
      rcases hb with h | rfl | h
      · exact Or.inl h
      · exact absurd rfl hne
      · exact Or.inr h
    have pos : ∀ l : List (ℝ × ℝ × ℝ), b ∈ l → 0 < (l.map fun r => r.2.2).countP (fun x => decide (x ≠ 0)) := by
      intro l hl
      rw [List.countP_pos_iff]
      exact ⟨b.2.2, List.mem_map.2 ⟨b, hl, rfl⟩, by simpa using hb0.ne'⟩
    rw [e, List.map_append, List.map_cons, List.countP_append, List.countP_cons] at hc
    simp only [show decide (a.2.2 ≠ 0) = true by simpa using ha0.ne', if_true] at hc
    rcases hb' with h | h
    · have := pos p h; omega
    · have := pos q h; omega

/-- The day the effluent first reaches the influent. -/
structure Spec.FirstDay (i : CapIn) (d : ℕ) : Prop where
  inside : (d : ℝ) ≤ i.duration
  reached : interpExtrap i.infl d ≤ interpExtrap i.effl d
  before : ∀ k : ℕ, k < d → interpExtrap i.effl k < interpExtrap i.infl k

theorem search_cross (h : Spec.CapData i) {d : ℕ} (hd : Spec.FirstDay i d) :
    capSearch i = some ((d : ℝ) - 1, "breakthrough") := by
  simp only [capSearch]
  rw [if_pos (guard_of_cross h (Nat.cast_nonneg d) hd.inside hd.reached),
    find_capDays (d := d) (by have := hd.inside; linarith) (by simpa using hd.reached)
      (fun k hk => by simpa using hd.before k hk)]

theorem find_cross (h : Spec.CapData i) (h2 : Spec.TwoSamples i) {d : ℕ} (hd : Spec.FirstDay i d) :
    capFind i fit reg = ⟨d - 1, "breakthrough", true, i.infl, i.effl⟩ := by
  unfold capFind
  rw [if_neg (not_minimum h h2), search_cross h hd]

/-! ### C124 -/

/-- C124, in full: if the effluent reaches the influent on some day within the data, the breakthrough time is within a
day of the first such day. -/
def C124 : Prop := ∀ (i : CapIn) (fit : Option (ℝ × ℝ × ℝ)) (reg : Option (ℝ × ℝ)) (d : ℕ), Spec.CapData i →
  Spec.TwoSamples i → Spec.FirstDay i d → |(calcCapacity i fit reg).brk - d| ≤ 1

/-- C124 for a first day from 1 to 2001: the day before, but at least day one. Missing: day zero, later days. -/
theorem c124_partial (h : Spec.CapData i) (h2 : Spec.TwoSamples i) {d : ℕ} (hd : Spec.FirstDay i d) (h0 : 1 ≤ d)
    (h1 : d ≤ 2001) : (calcCapacity i fit reg).brk = max 1 ((d : ℝ) - 1) ∧ (calcCapacity i fit reg).code = "breakthrough" ∧
      |(calcCapacity i fit reg).brk - d| ≤ 1 := by
  have e : (calcCapacity i fit reg).brk = capClean (capFind i fit reg) := rfl
  have ec : (calcCapacity i fit reg).code = (capFind i fit reg).code := rfl
  have hd1 : (1 : ℝ) ≤ d := by exact_mod_cast h0
  have hd2 : (d : ℝ) ≤ 2001 := by exact_mod_cast h1
  have key : (calcCapacity i fit reg).brk = max 1 ((d : ℝ) - 1) := by
    rw [e, find_cross h h2 hd, capClean]
    simp only
    rw [if_neg (by linarith), if_neg (by linarith)]
    by_cases hz : d = 1
    · subst hz; norm_num
    · have : (2 : ℝ) ≤ d := by exact_mod_cast (by omega : 2 ≤ d)
      rw [if_neg (by linarith), max_eq_right (by linarith)]
  refine ⟨key, by rw [ec, find_cross h h2 hd], ?_⟩
  rw [key, abs_le]
  constructor
  · have := le_max_right (1 : ℝ) (d - 1); linarith
  · have : max (1 : ℝ) (d - 1) ≤ d := max_le hd1 (by linarith)
    linarith

theorem foldl_last {P : ℝ → Prop} [DecidablePred P] : ∀ (l : List (ℝ × ℝ)) (g : ℝ),
    ((∀ r ∈ l, ¬ P r.1) ∧ l.foldl (fun g r => if P r.1 then r.1 else g) g = g) ∨
    ∃ r ∈ l, P r.1 ∧ l.foldl (fun g r => if P r.1 then r.1 else g) g = r.1 ∧
      (Spec.Increasing l → ∀ s ∈ l, P s.1 → s.1 ≤ r.1)
  | [], g => Or.inl ⟨by simp, rfl⟩
  | a :: l, g => by
    rw [List.foldl_cons]
    rcases foldl_last (P := P) l (if P a.1 then a.1 else g) with ⟨h1, h2⟩ | ⟨r, hr, hP, he, hm⟩
    · by_cases hP : P a.1
      · right
        rw [if_pos hP] at h2
        refine ⟨a, by simp, hP, by rw [if_pos hP]; exact h2, fun _ s hs hPs => ?_⟩
        rcases List.mem_cons.1 hs with rfl | hs
        · exact le_rfl
        · exact absurd hPs (h1 s hs)
      · left
        rw [if_neg hP] at h2
        refine ⟨fun r hr => ?_, by rw [if_neg hP]; exact h2⟩
        rcases List.mem_cons.1 hr with rfl | hr
        · exact hP
        · exact h1 r hr
    · right
      refine ⟨r, List.mem_cons_of_mem _ hr, hP, he, fun hinc s hs hPs => ?_⟩
      rcases List.mem_cons.1 hs with rfl | hs
      · exact ((List.pairwise_cons.1 hinc).1 r hr).le
      · exact hm (List.pairwise_cons.1 hinc).2 s hs hPs

theorem lastPos_data (h : Spec.CapData i) : lastPos i.effl = i.duration := by
  obtain ⟨x, hx, hd⟩ := List.mem_map.1 h.last.1
  have hmem : (x.1, x.2.2) ∈ i.effl := List.mem_map.2 ⟨x, hx, rfl⟩
  have hpos : 0 < x.1 := by rw [hd]; exact duration_pos h
  unfold lastPos
  rcases foldl_last (P := fun t : ℝ => 0 < t) i.effl 0 with ⟨h1, -⟩ | ⟨r, hr, hP, he, hm⟩
  · exact absurd hpos (h1 _ hmem)
  · rw [he]
    obtain ⟨y, hy, rfl⟩ := List.mem_map.1 hr
    have h1 := hm h.effl_inc _ hmem hpos
    have h2 := h.last.2 y hy
    simp only at h1 ⊢
    linarith

/-- C124: if the effluent is not under the influent on day zero, the breakthrough time is the end of the data. -/
theorem c124_zero (h : Spec.CapData i) (h2 : Spec.TwoSamples i) (hd : Spec.FirstDay i 0) :
    (calcCapacity i fit reg).brk = i.duration := by
  have e : (calcCapacity i fit reg).brk = capClean (capFind i fit reg) := rfl
  rw [e, find_cross h h2 hd, capClean]
  simp only
  rw [if_pos (by norm_num), lastPos_data h]

/-- C124: a first day past 2001 gives the last sampling time before 2000. -/
theorem c124_late (h : Spec.CapData i) (h2 : Spec.TwoSamples i) {d : ℕ} (hd : Spec.FirstDay i d) (h1 : 2001 < d) :
    (calcCapacity i fit reg).brk < 2000 ∧ (calcCapacity i fit reg).brk ∈ i.rows.map Prod.fst ∧
    ∀ r ∈ i.rows, r.1 < 2000 → r.1 ≤ (calcCapacity i fit reg).brk := by
  have e : (calcCapacity i fit reg).brk = capClean (capFind i fit reg) := rfl
  have hd1 : (2001 : ℝ) < d := by exact_mod_cast h1
  rw [e, find_cross h h2 hd, capClean]
  simp only
  rw [if_neg (by linarith), if_pos (by linarith)]
  unfold lastBelow
  rcases foldl_last (P := fun t : ℝ => t < 2000) i.effl 0 with ⟨h3, -⟩ | ⟨r, hr, hP, he, hm⟩
  · obtain ⟨a, b, l, ea, ha⟩ := h.start
    exact absurd (by simp only; rw [ha]; norm_num) (h3 (a.1, a.2.2) (List.mem_map.2 ⟨a, by rw [ea]; simp, rfl⟩))
  · rw [he]
    obtain ⟨y, hy, rfl⟩ := List.mem_map.1 hr
    refine ⟨hP, List.mem_map.2 ⟨y, hy, rfl⟩, fun r hr hlt => ?_⟩
    exact hm h.effl_inc (r.1, r.2.2) (List.mem_map.2 ⟨r, hr, rfl⟩) hlt

/-- Ten days of data in which the effluent starts above the influent. -/
def exCap (T : ℝ) : CapIn where
  rows := [(0, 1, 5), (1, 10, 5), (T, 10, 5)]
  duration := T
  flrt := 100
  flowMult := 1 / 1000
  tMult := 1440
  wt := 10
  massMul := 1
  xn := 0.45

theorem exCap_data {T : ℝ} (hT : 1 < T) : Spec.CapData (exCap T) where
  sorted := by simp [exCap]; constructor <;> linarith
  start := ⟨_, _, _, rfl, rfl⟩
  last := by
    refine ⟨by simp [exCap], fun r hr => ?_⟩
    simp only [exCap, List.mem_cons, List.not_mem_nil, or_false] at hr
    rcases hr with rfl | rfl | rfl <;> simp only [exCap] <;> linarith
  nonneg := by
    intro r hr
    simp only [exCap, List.mem_cons, List.not_mem_nil, or_false] at hr
    rcases hr with rfl | rfl | rfl <;> norm_num

theorem exCap_two (T : ℝ) : Spec.TwoSamples (exCap T) :=
  ⟨(0, 1, 5), by simp [exCap], (1, 10, 5), by simp [exCap], by norm_num, by norm_num, by norm_num⟩

theorem exCap_zero {T : ℝ} (hT : 1 < T) : Spec.FirstDay (exCap T) 0 where
  inside := by simp only [exCap, Nat.cast_zero]; linarith
  reached := by
    simp only [CapIn.infl, CapIn.effl, exCap, List.map, interpExtrap, Nat.cast_zero]
    norm_num
  before := fun k hk => absurd hk (Nat.not_lt_zero k)

/-- C124 is false: effluent over influent on day zero, breakthrough at the end. -/
theorem c124_false : ¬ C124 := by
  intro h
  have := h (exCap 10) none none 0 (exCap_data (by norm_num)) (exCap_two 10) (exCap_zero (by norm_num))
  rw [c124_zero (exCap_data (by norm_num)) (exCap_two 10) (exCap_zero (by norm_num))] at this
  norm_num [exCap] at this

/-- Data with the first crossing on day 3: hypotheses of `c124_partial`. -/
def exCap3 : CapIn where
  rows := [(0, 10, 0), (2, 10, 8), (3, 10, 12), (5, 10, 12)]
  duration := 5
  flrt := 100
  flowMult := 1 / 1000
  tMult := 1440
  wt := 10
  massMul := 1
  xn := 0.45

theorem exCap3_data : Spec.CapData exCap3 where
  sorted := by simp [exCap3]; norm_num
  start := ⟨_, _, _, rfl, rfl⟩
  last := by
    refine ⟨by simp [exCap3], fun r hr => ?_⟩
    simp only [exCap3, List.mem_cons, List.not_mem_nil, or_false] at hr
    rcases hr with rfl | rfl | rfl | rfl <;> norm_num [exCap3]
  nonneg := by
    intro r hr
    simp only [exCap3, List.mem_cons, List.not_mem_nil, or_false] at hr
    rcases hr with rfl | rfl | rfl | rfl <;> norm_num

example : (calcCapacity exCap3 none none).brk = 2 := by
  have hd : Spec.FirstDay exCap3 3 := by
    constructor
    · norm_num [exCap3]
    · simp only [CapIn.infl, CapIn.effl, exCap3, List.map, interpExtrap]; norm_num
    · intro k hk
      interval_cases k <;> simp only [CapIn.infl, CapIn.effl, exCap3, List.map, interpExtrap] <;> norm_num
  rw [(c124_partial exCap3_data ⟨(2, 10, 8), by simp [exCap3], (3, 10, 12), by simp [exCap3], by norm_num, by norm_num,
    by norm_num⟩ hd (by norm_num) (by norm_num)).1]
  norm_num

/-! ### C125 -/

theorem setPoint_mem {r : ℝ × ℝ} {t v : ℝ} : ∀ {l : List (ℝ × ℝ)}, r ∈ setPoint l t v → r = (t, v) ∨ r ∈ l
  | [], h => by simp only [setPoint, List.mem_cons, List.not_mem_nil, or_false] at h; exact Or.inl h
  | a :: l, h => by
    simp only [setPoint] at h
    split_ifs at h
    · rcases List.mem_cons.1 h with h | h
      · exact Or.inl h
      · exact Or.inr (List.mem_cons_of_mem _ h)
    · rcases List.mem_cons.1 h with h | h
      · exact Or.inl h
      · exact Or.inr h
    · rcases List.mem_cons.1 h with h | h
      · exact Or.inr (by rw [h]; exact List.mem_cons_self)
      · rcases setPoint_mem h with h | h
        · exact Or.inl h
        · exact Or.inr (List.mem_cons_of_mem _ h)

theorem setPoint_keeps {r : ℝ × ℝ} {t v : ℝ} : ∀ {l : List (ℝ × ℝ)}, r ∈ l → ∃ s ∈ setPoint l t v, s.1 = r.1
  | a :: l, h => by
    simp only [setPoint]
    split_ifs with h1 h2
    · rcases List.mem_cons.1 h with rfl | h
      · exact ⟨(t, v), by simp, h1.symm⟩
      · exact ⟨r, List.mem_cons_of_mem _ h, rfl⟩
    · exact ⟨r, List.mem_cons_of_mem _ h, rfl⟩
    · rcases List.mem_cons.1 h with rfl | h
      · exact ⟨r, List.mem_cons_self, rfl⟩
      · obtain ⟨s, hs, e⟩ := setPoint_keeps (v := v) (t := t) h
        exact ⟨s, List.mem_cons_of_mem _ hs, e⟩

theorem setPoint_has (t v : ℝ) : ∀ l : List (ℝ × ℝ), (t, v) ∈ setPoint l t v
  | [] => by simp [setPoint]
  | a :: l => by
    simp only [setPoint]
    split_ifs
    · simp
    · simp
    · exact List.mem_cons_of_mem _ (setPoint_has t v l)

theorem setPoint_inc {t v : ℝ} : ∀ {l : List (ℝ × ℝ)}, Spec.Increasing l → Spec.Increasing (setPoint l t v)
  | [], _ => List.pairwise_singleton _ _
  | a :: l, h => by
    have hc := List.pairwise_cons.1 h
    simp only [setPoint]
    split_ifs with h1 h2
    · exact List.pairwise_cons.2 ⟨fun r hr => by simp only; rw [← h1]; exact hc.1 r hr, hc.2⟩
    · refine List.pairwise_cons.2 ⟨fun r hr => ?_, h⟩
      rcases List.mem_cons.1 hr with rfl | hr
      · exact h2
      · exact h2.trans (hc.1 r hr)
    · refine List.pairwise_cons.2 ⟨fun r hr => ?_, setPoint_inc hc.2⟩
      rcases setPoint_mem hr with rfl | hr
      · exact lt_of_le_of_ne (not_lt.1 h2) h1
      · exact hc.1 r hr

/-- What the search leaves: the series as they were and a time within the data, or one point added at a positive
time. -/
theorem capFind_shape (h : Spec.CapData i) : let s := capFind i fit reg
    (s.infl = i.infl ∧ s.effl = i.effl ∧ s.time ≤ i.duration ∨
      ∃ t w, 0 < t ∧ 0 < s.time ∧ (s.time ≤ t ∨ s.time ≤ i.duration) ∧ s.infl = setPoint i.infl t i.aveC ∧
        s.effl = setPoint i.effl t w) ∧ (s.found = false → s.code = "none") := by
  intro s
  have hD := duration_pos h
  have days : ∀ {P : ℝ → Bool} {t : ℝ}, (capDays i.duration).find? P = some t → t - 1 ≤ i.duration := by
    intro P t ht
    obtain ⟨k, rfl, hk⟩ := mem_capDays.1 (List.mem_of_find?_eq_some ht)
    linarith
  have hs : ∀ {t code}, capSearch i = some (t, code) → t ≤ i.duration := by
    intro t code ht
    simp only [capSearch] at ht
    split_ifs at ht
    split at ht
    · rename_i x hx
      have := days hx
      simp only [Option.some.injEq, Prod.mk.injEq] at ht
      rw [← ht.1]; exact this
    · rw [Option.map_eq_some_iff] at ht
      obtain ⟨x, hx, hxt⟩ := ht
      have := days hx
      simp only [Prod.mk.injEq] at hxt
      rw [← hxt.1]; exact this
  by_cases h1 : (i.effl.map Prod.snd).sum = 0 ∨ (i.effl.map Prod.snd).countP (fun x => decide (x ≠ 0)) = 1
  · simp only [s, capFind]
    rw [if_pos h1]
    exact ⟨Or.inl ⟨rfl, rfl, le_rfl⟩, by simp⟩
  · simp only [s, capFind]
    rw [if_neg h1]
    rcases hcs : capSearch i with _ | ⟨t, code⟩
    swap
    · exact ⟨Or.inl ⟨rfl, rfl, hs hcs⟩, by simp⟩
    · have hlog : ((capLogistic i fit).infl = i.infl ∧ (capLogistic i fit).effl = i.effl ∧
          (capLogistic i fit).time ≤ i.duration ∨
          ((capLogistic i fit).found = true ∧ ∃ t w, 0 < t ∧ 0 < (capLogistic i fit).time ∧
          ((capLogistic i fit).time ≤ t ∨ (capLogistic i fit).time ≤ i.duration) ∧
          (capLogistic i fit).infl = setPoint i.infl t i.aveC ∧ (capLogistic i fit).effl = setPoint i.effl t w)) ∧
          ((capLogistic i fit).found = false → (capLogistic i fit).code = "none") := by
        unfold capLogistic
        split
        · exact ⟨Or.inl ⟨rfl, rfl, le_rfl⟩, fun _ => rfl⟩
        · rename_i c0 a b
          simp only
          split_ifs with h2 h3 h3 h4
          · exact ⟨Or.inr ⟨rfl, _, _, hD.trans_le h2, hD, Or.inr le_rfl, rfl, rfl⟩, by simp⟩
          · exact ⟨Or.inr ⟨rfl, _, _, hD.trans_le h2, hD.trans_le h2, Or.inl le_rfl, rfl, rfl⟩, by simp⟩
          · exact ⟨Or.inl ⟨rfl, rfl, le_rfl⟩, by simp⟩
          · exact ⟨Or.inl ⟨rfl, rfl, (not_le.1 h2).le⟩, by simp⟩
          · exact ⟨Or.inl ⟨rfl, rfl, (not_le.1 h2).le⟩, by simp⟩
      split_ifs with h2
      · refine ⟨?_, by rw [h2]; simp⟩
        rcases hlog.1 with h3 | ⟨-, h3⟩
        · exact Or.inl h3
        · exact Or.inr h3
      · have h2' : (capLogistic i fit).found = false := by simpa using h2
        have h3 : (capLogistic i fit).infl = i.infl ∧ (capLogistic i fit).effl = i.effl ∧
            (capLogistic i fit).time ≤ i.duration := by
          rcases hlog.1 with h3 | ⟨h3, -⟩
          · exact h3
          · exact absurd h3 h2
        rcases capLine i reg with _ | ⟨⟨m, c⟩, code⟩
        · exact ⟨Or.inl h3, hlog.2⟩
        · simp only [capLinear]
          refine ⟨Or.inr ?_, by simp⟩
          simp only [h3.1, h3.2.1]
          have hpos : 0 < if npRound ((i.aveC - c) / m) ≤ 0 then lastPos i.effl else npRound ((i.aveC - c) / m) := by
            split_ifs with h4
            · rw [lastPos_data h]; exact hD
            · exact not_le.1 h4
          exact ⟨_, _, hpos, hpos, Or.inl le_rfl, rfl, rfl⟩

/-- The last checks: the time is one, the end of the data, the last time of the series before 2000, or as it was. -/
theorem capClean_cases (h : Spec.CapData i) (hr : ∃ r ∈ i.rows, 0 < r.1 ∧ r.1 < 2000) : let s := capFind i fit reg
    (capClean s = 1) ∨ capClean s = i.duration ∨ (0 < capClean s ∧ capClean s < 2000 ∧ ∃ r ∈ s.effl, r.1 = capClean s) ∨
      (capClean s = s.time ∧ 0 < s.time ∧ s.time ≤ 2000) := by
  intro s
  have sh := (capFind_shape (fit := fit) (reg := reg) h).1
  unfold capClean
  split_ifs with h1 h2 h3
  · right; left
    rcases sh with ⟨-, he, -⟩ | ⟨t, w, -, ht, -⟩
    · rw [he]; exact lastPos_data h
    · exact absurd h1 (not_lt.2 ht.le)
  · right; right; left
    obtain ⟨x, hx, hx0, hx2⟩ := hr
    have hmem : (x.1, x.2.2) ∈ i.effl := List.mem_map.2 ⟨x, hx, rfl⟩
    obtain ⟨y, hy, hyx⟩ : ∃ y ∈ s.effl, y.1 = x.1 := by
      rcases sh with ⟨-, he, -⟩ | ⟨t, w, -, -, -, -, he⟩
      · exact ⟨_, by rw [he]; exact hmem, rfl⟩
      · obtain ⟨y, hy, e⟩ := setPoint_keeps (t := t) (v := w) hmem
        exact ⟨y, by rw [he]; exact hy, e⟩
    have hinc : Spec.Increasing s.effl := by
      rcases sh with ⟨-, he, -⟩ | ⟨t, w, -, -, -, -, he⟩
      · rw [he]; exact h.effl_inc
      · rw [he]; exact setPoint_inc h.effl_inc
    unfold lastBelow
    rcases foldl_last (P := fun t : ℝ => t < 2000) s.effl 0 with ⟨h3, -⟩ | ⟨r, hr, hP, he, hm⟩
    · exact absurd (by rw [hyx]; exact hx2) (h3 y hy)
    · have := hm hinc y hy (by rw [hyx]; exact hx2)
      simp only [he]
      exact ⟨by linarith, hP, r, hr, rfl⟩
  · left; rfl
  · right; right; right
    refine ⟨rfl, ?_, not_lt.1 h2⟩
    exact lt_of_le_of_ne (not_lt.1 h1) (Ne.symm h3)

/-- C125, in full: the breakthrough time is positive and at most 2000. -/
def C125 : Prop := ∀ (i : CapIn) (fit : Option (ℝ × ℝ × ℝ)) (reg : Option (ℝ × ℝ)), Spec.CapData i →
  0 < (calcCapacity i fit reg).brk ∧ (calcCapacity i fit reg).brk ≤ 2000

/-- C125 with data that end before 2000. -/
theorem c125_partial (h : Spec.CapData i) (hD : i.duration < 2000) :
    0 < (calcCapacity i fit reg).brk ∧ (calcCapacity i fit reg).brk ≤ 2000 := by
  have h0 := duration_pos h
  obtain ⟨x, hx, hd⟩ := List.mem_map.1 h.last.1
  have := capClean_cases (fit := fit) (reg := reg) h ⟨x, hx, by rw [hd]; exact h0, by rw [hd]; exact hD⟩
  have e : (calcCapacity i fit reg).brk = capClean (capFind i fit reg) := rfl
  rw [e]
  rcases this with e | e | ⟨e1, e2, -⟩ | ⟨e, e1, e2⟩
  · rw [e]; norm_num
  · rw [e]; exact ⟨h0, hD.le⟩
  · exact ⟨e1, e2.le⟩
  · rw [e]; exact ⟨e1, e2⟩

/-- C125 for any length of data with a sampling time between 0 and 2000: positive. -/
theorem c125_positive (h : Spec.CapData i) (hr : ∃ r ∈ i.rows, 0 < r.1 ∧ r.1 < 2000) :
    0 < (calcCapacity i fit reg).brk := by
  have e : (calcCapacity i fit reg).brk = capClean (capFind i fit reg) := rfl
  rw [e]
  rcases capClean_cases (fit := fit) (reg := reg) h hr with e | e | ⟨e1, e2, -⟩ | ⟨e, e1, e2⟩
  · rw [e]; norm_num
  · rw [e]; exact duration_pos h
  · exact e1
  · rw [e]; exact e1

/-- C125 is false: data of 3000 days with the effluent over the influent at first give 3000. -/
theorem c125_false : ¬ C125 := by
  intro h
  have := (h (exCap 3000) none none (exCap_data (by norm_num))).2
  rw [c124_zero (exCap_data (by norm_num)) (exCap_two 3000) (exCap_zero (by norm_num))] at this
  norm_num [exCap] at this

example : 0 < (calcCapacity exCap3 (some (1, 2, 3)) (some (4, 5))).brk ∧
    (calcCapacity exCap3 (some (1, 2, 3)) (some (4, 5))).brk ≤ 2000 :=
  c125_partial exCap3_data (by norm_num [exCap3])

/-! ### C123: the signs -/

theorem meanOf_pos {l : List ℝ} (hne : l ≠ []) (h : ∀ x ∈ l, 0 < x) : 0 < meanOf l := by
  unfold meanOf
  exact div_pos (List.sum_pos _ h hne) (by exact_mod_cast List.length_pos_iff.2 hne)

theorem aveC_pos (h : Spec.CapData i) : 0 < i.aveC := by
  unfold CapIn.aveC
  obtain ⟨a, b, l, e, -⟩ := h.start
  refine meanOf_pos (by rw [CapIn.infl, e]; simp) fun x hx => ?_
  obtain ⟨r, hr, rfl⟩ := List.mem_map.1 hx
  exact infl_pos h hr

/-- C123: the average of the influent is positive, and so are `q` and `k` if breakthrough was found or estimated. -/
theorem c123_signs (h : Spec.CapData i) (hD : 1 ≤ i.duration) (hr : ∃ r ∈ i.rows, 0 < r.1 ∧ r.1 < 2000)
    (hm : 0 < i.massMul) : let o := calcCapacity i fit reg
    0 < o.aveC ∧ (o.code ≠ "none" → 1e-6 ≤ o.q ∧ 0 < o.k) := by
  intro o
  have sh := capFind_shape (fit := fit) (reg := reg) h
  have hT := c125_positive (fit := fit) (reg := reg) h hr
  have hcl := capClean_cases (fit := fit) (reg := reg) h hr
  obtain ⟨a, b, rs, er, ha⟩ := h.start
  -- the influent series with or without the point
  have hpos : ∀ r ∈ (capFind i fit reg).infl, 0 < r.2 := by
    intro r hr
    rcases sh.1 with ⟨e, -⟩ | ⟨t, w, -, -, -, e, -⟩
    · exact infl_pos h (by rw [← e]; exact hr)
    · rw [e] at hr
      rcases setPoint_mem hr with rfl | hr
      · exact aveC_pos h
      · exact infl_pos h hr
  have hshape : ∃ x l, (capFind i fit reg).infl = x :: l ∧ l ≠ [] ∧ x.1 = 0 ∧ Spec.Increasing (x :: l) := by
    have e0 : i.infl = (a.1, if a.2.1 = 0 then 1e-3 else a.2.1) :: (b.1, if b.2.1 = 0 then 1e-3 else b.2.1) ::
        rs.map fun r => (r.1, if r.2.1 = 0 then 1e-3 else r.2.1) := by rw [CapIn.infl, er]; rfl
    have hinc := h.infl_inc
    rcases sh.1 with ⟨e, -⟩ | ⟨t, w, ht, -, -, e, -⟩
    · rw [e, e0]
      rw [e0] at hinc
      exact ⟨_, _, rfl, by simp, ha, hinc⟩
    · have := setPoint_inc (t := t) (v := i.aveC) hinc
      rw [e]
      rw [e0] at this ⊢
      rw [setPoint, if_neg (by simp only; rw [ha]; exact ht.ne), if_neg (by simp only; rw [ha]; exact not_lt.2 ht.le)] at this ⊢
      refine ⟨_, _, rfl, ?_, ha, this⟩
      intro hnil
      have := setPoint_has t i.aveC ((b.1, if b.2.1 = 0 then 1e-3 else b.2.1) ::
        rs.map fun r => (r.1, if r.2.1 = 0 then 1e-3 else r.2.1))
      rw [hnil] at this
      exact List.not_mem_nil this
  have hdur : ∃ r ∈ (capFind i fit reg).infl, r.1 = i.duration := by
    obtain ⟨x, hx, hd⟩ := List.mem_map.1 h.last.1
    have hmem : (x.1, if x.2.1 = 0 then (1e-3 : ℝ) else x.2.1) ∈ i.infl := List.mem_map.2 ⟨x, hx, rfl⟩
    rcases sh.1 with ⟨e, -⟩ | ⟨t, w, -, -, -, e, -⟩
    · exact ⟨_, by rw [e]; exact hmem, hd⟩
    · obtain ⟨y, hy, ey⟩ := setPoint_keeps (t := t) (v := i.aveC) hmem
      exact ⟨y, by rw [e]; exact hy, by rw [ey]; exact hd⟩
  have hend : ∃ r ∈ (capFind i fit reg).infl, o.brk ≤ r.1 := by
    obtain ⟨r, hr, hrd⟩ := hdur
    have e : o.brk = capClean (capFind i fit reg) := rfl
    rw [e]
    rcases hcl with e | e | ⟨-, -, y, hy, e⟩ | ⟨e, -, -⟩
    · exact ⟨r, hr, by rw [e, hrd]; exact hD⟩
    · exact ⟨r, hr, by rw [e, hrd]⟩
    · rw [← e]
      have old : ∀ z ∈ i.effl, z.1 ≤ i.duration := by
        intro z hz
        obtain ⟨u, hu, rfl⟩ := List.mem_map.1 hz
        exact h.last.2 u hu
      rcases sh.1 with ⟨-, ee, -⟩ | ⟨t, w, -, -, -, ei, ee⟩
      · rw [ee] at hy
        exact ⟨r, hr, by rw [hrd]; exact old y hy⟩
      · rw [ee] at hy
        rcases setPoint_mem hy with rfl | hy
        · exact ⟨(t, i.aveC), by rw [ei]; exact setPoint_has _ _ _, le_rfl⟩
        · exact ⟨r, hr, by rw [hrd]; exact old y hy⟩
    · rw [e]
      rcases sh.1 with ⟨-, -, ht⟩ | ⟨t, w, -, -, ht | ht, ei, -⟩
      · exact ⟨r, hr, by rw [hrd]; exact ht⟩
      · exact ⟨(t, i.aveC), by rw [ei]; exact setPoint_has _ _ _, ht⟩
      · exact ⟨r, hr, by rw [hrd]; exact ht⟩
  have hval : ∀ t, 0 ≤ t → t ≤ o.brk → 0 < interpExtrap (capFind i fit reg).infl t := by
    intro t h0 ht
    obtain ⟨r, hr, hrT⟩ := hend
    obtain ⟨x, l, e, hl, hx0, hinc⟩ := hshape
    obtain ⟨m, hm, hmn⟩ := exists_min_snd (l := (capFind i fit reg).infl) (by rw [e]; simp)
    obtain ⟨M, hM, hMx⟩ := exists_max_snd (l := (capFind i fit reg).infl) (by rw [e]; simp)
    have hmp := hpos m hm
    rw [e] at hmn hMx hr ⊢
    have := (interpExtrap_range hinc hl (fun r hr => ⟨hmn r hr, hMx r hr⟩) (by rw [hx0]; exact h0)
      ⟨r, hr, ht.trans hrT⟩).1
    linarith
  have hav : 0 < o.aveC := by
    have e : o.aveC = meanOf (((capDays i.duration).filter fun t => t ≤ o.brk).map (interpExtrap (capFind i fit reg).infl)) := rfl
    rw [e]
    refine meanOf_pos ?_ ?_
    · have h0 : (0 : ℝ) ∈ (capDays i.duration).filter fun t => t ≤ o.brk := by
        rw [List.mem_filter]
        exact ⟨mem_capDays.2 ⟨0, by simp, by push_cast; linarith⟩, by simpa using hT.le⟩
      intro hn
      rw [List.map_eq_nil_iff] at hn
      rw [hn] at h0
      exact List.not_mem_nil h0
    · intro x hx
      obtain ⟨t, ht, rfl⟩ := List.mem_map.1 hx
      rw [List.mem_filter] at ht
      obtain ⟨k, rfl, -⟩ := mem_capDays.1 ht.1
      exact hval _ (Nat.cast_nonneg k) (by simpa using ht.2)
  refine ⟨hav, fun hc => ?_⟩
  have hf : (capFind i fit reg).found = true := by
    by_contra hcon
    exact hc (sh.2 (by simpa using hcon))
  have hq : 1e-6 ≤ o.q := by
    simp only [o, calcCapacity, capResult, hf, true_and]
    split_ifs with hle
    · exact le_rfl
    · exact (not_le.1 hle).le
  refine ⟨hq, ?_⟩
  have ek : o.k = o.q / (o.aveC * i.massMul) ^ i.xn := rfl
  rw [ek]
  exact div_pos (by linarith) (Real.rpow_pos_of_pos (mul_pos hav hm) _)

example : 0 < (calcCapacity exCap3 (some (1, 2, 3)) none).aveC :=
  (c123_signs exCap3_data (by norm_num [exCap3]) ⟨(2, 10, 8), by simp [exCap3], by norm_num, by norm_num⟩
    (by norm_num [exCap3])).1

/-! ### C126: the logistic curve -/

/-- C126: the day of a fitted curve: within half a day of the time at which the curve is at 99 % of its plateau. -/
theorem c126_time (c0 a b : ℝ) (hb : b ≠ 0) : ∃ t, logistic t c0 a b = 0.99 * c0 ∧ |logisticTime a b - t| ≤ 1 / 2 := by
  refine ⟨(a + Real.log 99) / b, ?_, npRound_near _⟩
  unfold logistic
  rw [mul_div_cancel₀ _ hb, show a - (a + Real.log 99) = -Real.log 99 by ring, Real.exp_neg,
    Real.exp_log (by norm_num)]
  field_simp
  norm_num
  ring

/-- C126: that is the only such time. -/
theorem c126_unique {c0 a b s t : ℝ} (hc : c0 ≠ 0) (hb : b ≠ 0) (h : logistic s c0 a b = logistic t c0 a b) : s = t := by
  unfold logistic at h
  have h1 : (0 : ℝ) < 1 + Real.exp (a - b * s) := by positivity
  have h2 : (0 : ℝ) < 1 + Real.exp (a - b * t) := by positivity
  rw [div_eq_div_iff h1.ne' h2.ne'] at h
  have := mul_left_cancel₀ hc h
  have he : Real.exp (a - b * t) = Real.exp (a - b * s) := by linarith
  have := Real.exp_injective he
  exact mul_left_cancel₀ hb (by linarith)

/-- C126: a time found by the curve is a whole number of days past a quarter of the data, the end of the data if the
curve is not at 99 % by day 2000; the search takes it if no crossing is seen. -/
theorem c126_code (h1 : ¬ ((i.effl.map Prod.snd).sum = 0 ∨ (i.effl.map Prod.snd).countP (fun x => decide (x ≠ 0)) = 1))
    (h2 : capSearch i = none) {c0 a b : ℝ} (h3 : 0.25 * i.duration < logisticTime a b) :
    (capFind i (some (c0, a, b)) reg).code = "logistic" ∧
    (capFind i (some (c0, a, b)) reg).time = if 2000 < logisticTime a b then i.duration else logisticTime a b := by
  have hf : (capLogistic i (some (c0, a, b))).found = true ∧ (capLogistic i (some (c0, a, b))).code = "logistic" ∧
      (capLogistic i (some (c0, a, b))).time = if 2000 < logisticTime a b then i.duration else logisticTime a b := by
    unfold capLogistic
    simp only
    split_ifs <;> simp_all
  unfold capFind
  rw [if_neg h1, h2]
  simp only [hf.1, if_true]
  exact hf.2

/-- C126: the artificial point lies on the curve: at 90 % of the plateau (time as computed, before rounding). -/
theorem c126_artificial {c0 a b : ℝ} (hb : b ≠ 0) : logistic (-(Real.log (1 / 0.9 - 1) - a) / b) c0 a b = 0.9 * c0 := by
  unfold logistic
  rw [mul_div_cancel₀ _ hb, show a - -(Real.log (1 / 0.9 - 1) - a) = Real.log (1 / 0.9 - 1) by ring,
    Real.exp_log (by norm_num)]
  norm_num
  ring

/-! ### C127: the data table -/

/-- C127, in full: the estimate leaves the data table as it was. -/
def C127 : Prop := ∀ (i : CapIn) (round3 : ℝ → ℝ) (single ap : Bool) (fit : Option (ℝ × ℝ × ℝ)),
  capData i round3 single ap fit = i.rows

/-- C127 without the artificial point, with several compounds, or with a crossing within the data. -/
theorem c127_partial (round3 : ℝ → ℝ) (single ap : Bool)
    (h : ap = false ∨ single = false ∨ ∃ d, Spec.CapData i ∧ Spec.FirstDay i d) :
    capData i round3 single ap fit = i.rows := by
  unfold capData
  split_ifs with h1
  · rfl
  · split
    · rfl
    · rename_i hs
      rcases h with rfl | rfl | ⟨d, hd, hx⟩
      · unfold capArtificial; split <;> simp
      · unfold capArtificial; split <;> simp
      · exfalso
        rw [search_cross hd hx] at hs
        exact absurd hs (by simp)

/-- C127 otherwise: one more row, at the end whatever its time. -/
theorem c127_row (h1 : ¬ ((i.effl.map Prod.snd).sum = 0 ∨ (i.effl.map Prod.snd).countP (fun x => decide (x ≠ 0)) = 1))
    (h2 : capSearch i = none) (round3 : ℝ → ℝ) {c0 a b : ℝ} {p l : ℝ × ℝ × ℝ} (hp : i.rows.head? = some p)
    (hl : i.rows.getLast? = some l) (hlt : l.2.2 / (if p.2.1 = 0 then 1e-3 else p.2.1) < 0.5) :
    capData i round3 true true (some (c0, a, b)) =
      i.rows ++ [(round3 (-(Real.log (1 / 0.9 - 1) - a) / b), i.aveC, 0.9 * c0)] := by
  unfold capData capArtificial
  rw [if_neg h1, h2]
  have e1 : i.effl.getLast? = some (l.1, l.2.2) := by rw [CapIn.effl, List.getLast?_map, hl]; rfl
  have e2 : i.infl.head? = some (p.1, if p.2.1 = 0 then 1e-3 else p.2.1) := by rw [CapIn.infl, List.head?_map, hp]; rfl
  simp only [e1, e2]
  rw [if_pos ⟨trivial, trivial, hlt⟩]

/-- Effluent far below the influent. -/
def exLow : CapIn := { exCap3 with rows := [(0, 10, 0), (2, 10, 1), (5, 10, 2)] }

theorem c127_false : ¬ C127 := by
  intro h
  have := h exLow id true true (some (10, 1, 1))
  rw [c127_row (p := (0, 10, 0)) (l := (5, 10, 2))] at this
  · simpa using congrArg List.length this
  · simp only [exLow, CapIn.effl, List.map]
    norm_num
  · simp only [capSearch]
    rw [if_neg]
    rintro ⟨e, he, c, hc, hle⟩
    simp only [exLow, CapIn.effl, CapIn.infl, List.map, List.mem_cons, List.not_mem_nil, or_false] at he hc
    rcases he with rfl | rfl | rfl <;> rcases hc with rfl | rfl | rfl <;> norm_num at hle
  · rfl
  · rfl
  · norm_num

/-! ### C128: the fouling estimate -/

/-- C128: with a curve between `lo` and `hi` on the days looked at, the estimate is between their inverses. -/
theorem c128_between {f : ℝ → ℝ} {tMult T lo hi : ℝ} (hT : 0 < T) (hlo : 0 < lo)
    (h : ∀ k : ℕ, (k : ℝ) < T → lo ≤ f (k * tMult) ∧ f (k * tMult) ≤ hi) :
    1 / hi ≤ foulEst f tMult T ∧ foulEst f tMult T ≤ 1 / lo := by
  have hn : (0 : ℝ) < ⌈T⌉₊ := by exact_mod_cast Nat.ceil_pos.2 hT
  have hk : ∀ k ∈ List.range ⌈T⌉₊, lo ≤ f ((k : ℝ) * tMult) ∧ f ((k : ℝ) * tMult) ≤ hi := fun k hk =>
    h k (Nat.lt_ceil.1 (List.mem_range.1 hk))
  have h1 : lo * ⌈T⌉₊ ≤ ((List.range ⌈T⌉₊).map fun k : ℕ => f (k * tMult)).sum := by
    have := List.card_nsmul_le_sum ((List.range ⌈T⌉₊).map fun k : ℕ => f (k * tMult)) lo (by
      intro x hx; obtain ⟨k, hk', rfl⟩ := List.mem_map.1 hx; exact (hk k hk').1)
    simpa [mul_comm] using this
  have h2 : ((List.range ⌈T⌉₊).map fun k : ℕ => f (k * tMult)).sum ≤ hi * ⌈T⌉₊ := by
    have := List.sum_le_card_nsmul ((List.range ⌈T⌉₊).map fun k : ℕ => f (k * tMult)) hi (by
      intro x hx; obtain ⟨k, hk', rfl⟩ := List.mem_map.1 hx; exact (hk k hk').2)
    simpa [mul_comm] using this
  have e : foulEst f tMult T = 1 / (((List.range ⌈T⌉₊).map fun k : ℕ => f (k * tMult)).sum / ⌈T⌉₊) := by
    simp [foulEst, meanOf]
  have hm1 : lo ≤ ((List.range ⌈T⌉₊).map fun k : ℕ => f (k * tMult)).sum / ⌈T⌉₊ := (le_div_iff₀ hn).2 h1
  have hm2 : ((List.range ⌈T⌉₊).map fun k : ℕ => f (k * tMult)).sum / ⌈T⌉₊ ≤ hi := (div_le_iff₀ hn).2 h2
  rw [e]
  exact ⟨one_div_le_one_div_of_le (hlo.trans_le hm1) hm2, one_div_le_one_div_of_le hlo hm1⟩

/-- C128: for a class that starts from full capacity, within the period simulated, the estimate is from 1 to 1000. -/
theorem c128_classes {water chem comp : String} {rk : ℝ × ℝ × ℝ × ℝ} (hp : chem ∈ Spec.fullClasses)
    (h : foulParams water chem comp = .ok rk) {tMult T maxDays : ℝ} (ht : 0 < tMult) (hT : 0 < T) (hd : T ≤ maxDays)
    (N : ℕ) : let est := foulEst (foulAt rk (maxDays * tMult) N) tMult T
    1 ≤ est ∧ est ≤ 1000 := by
  intro est
  have hE : 0 < maxDays * tMult := mul_pos (hT.trans_le hd) ht
  have h0 : foulAt rk (maxDays * tMult) N 0 = 1 := (c43_classes (by
    rintro rfl; simp [Spec.fullClasses] at hp) h hE N).2 hp
  obtain ⟨hfl, han⟩ := c41_used h hE N
  have := c128_between (f := foulAt rk (maxDays * tMult) N) (tMult := tMult) (lo := 1 / 1000) (hi := 1) hT (by norm_num)
    (fun k hk => by
      have h1 : 0 ≤ (k : ℝ) * tMult := mul_nonneg (Nat.cast_nonneg k) ht.le
      have h2 : (k : ℝ) * tMult ≤ maxDays * tMult := mul_le_mul_of_nonneg_right (hk.le.trans hd) ht.le
      exact ⟨hfl _ h1 h2, by rw [← h0]; exact han 0 _ le_rfl h1 h2⟩)
  norm_num at this
  exact this

/-- C128: a later breakthrough gives no smaller an estimate, for any curve that falls. -/
theorem c128_longer {f : ℝ → ℝ} {tMult : ℝ} (ht : 0 ≤ tMult) (hf : ∀ s t, 0 ≤ s → s ≤ t → f t ≤ f s) (hp : ∀ t, 0 ≤ t → 0 < f t)
    {S T : ℕ} (hS : 0 < S) (hST : S ≤ T) : foulEst f tMult S ≤ foulEst f tMult T := by
  have step : ∀ n : ℕ, 0 < n → foulEst f tMult n ≤ foulEst f tMult (n + 1 : ℕ) := by
    intro n hn
    have hn' : (0 : ℝ) < n := by exact_mod_cast hn
    have e : ∀ m : ℕ, foulEst f tMult m = 1 / (((List.range m).map fun k : ℕ => f (k * tMult)).sum / m) := by
      intro m; simp [foulEst, meanOf]
    have hl : n * f (n * tMult) ≤ ((List.range n).map fun k : ℕ => f (k * tMult)).sum := by
      have := List.card_nsmul_le_sum ((List.range n).map fun k : ℕ => f (k * tMult)) (f (n * tMult)) (by
        intro x hx
        obtain ⟨k, hk, rfl⟩ := List.mem_map.1 hx
        refine hf _ _ (by positivity) (mul_le_mul_of_nonneg_right ?_ ht)
        exact_mod_cast (List.mem_range.1 hk).le)
      simpa using this
    have hs : ((List.range (n + 1)).map fun k : ℕ => f (k * tMult)).sum =
        ((List.range n).map fun k : ℕ => f (k * tMult)).sum + f (n * tMult) := by
      rw [List.range_succ, List.map_append, List.sum_append]; simp
    have hfp : 0 < f (n * tMult) := hp _ (by positivity)
    have hsum : 0 < ((List.range n).map fun k : ℕ => f (k * tMult)).sum := lt_of_lt_of_le (mul_pos hn' hfp) hl
    rw [e, e, hs]
    push_cast
    refine one_div_le_one_div_of_le (by positivity) ?_
    rw [div_le_div_iff₀ (by positivity) hn']
    nlinarith
  induction T, hST using Nat.le_induction with
  | base => exact le_rfl
  | succ n hn ih => exact ih.trans (step n (by omega))

example : "phenols" ∈ Spec.fullClasses ∧ ∃ rk, foulParams "Rhine" "phenols" "x" = .ok rk :=
  ⟨by simp [Spec.fullClasses], _, rfl⟩

end
end WTM
