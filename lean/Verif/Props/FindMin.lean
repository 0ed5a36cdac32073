import Mathlib.Tactic
import Mathlib.Data.List.GetD
import Verif.Model.FindMin

/-! C132: the choice of the best cell of a table of errors. -/
set_option autoImplicit false
namespace WTM
noncomputable section

/-! ### Extremes of a list -/

theorem foldl_min_le : ∀ (l : List ℝ) (a : ℝ), l.foldl min a ≤ a ∧ ∀ x ∈ l, l.foldl min a ≤ x
  | [], a => ⟨le_rfl, by simp⟩
  | b :: l, a => by
    obtain ⟨h1, h2⟩ := foldl_min_le l (min a b)
    rw [List.foldl_cons]
    refine ⟨h1.trans (min_le_left _ _), fun x hx => ?_⟩
    rcases List.mem_cons.1 hx with rfl | hx
    · exact h1.trans (min_le_right _ _)
    · exact h2 x hx

theorem foldl_min_mem : ∀ (l : List ℝ) (a : ℝ), l.foldl min a = a ∨ l.foldl min a ∈ l
  | [], a => Or.inl rfl
  | b :: l, a => by
    rw [List.foldl_cons]
    rcases foldl_min_mem l (min a b) with h | h
    · rcases min_choice a b with e | e
      · left; rw [h, e]
      · right; rw [h, e]; exact List.mem_cons_self
    · exact Or.inr (List.mem_cons_of_mem _ h)

theorem minOf_mem {l : List ℝ} (h : l ≠ []) : minOf l ∈ l := by
  cases l with
  | nil => exact absurd rfl h
  | cons a l =>
    rcases foldl_min_mem (a :: l) a with e | e
    · show (a :: l).foldl min a ∈ _; rw [e]; exact List.mem_cons_self
    · exact e

theorem minOf_le {l : List ℝ} {x : ℝ} (hx : x ∈ l) : minOf l ≤ x := (foldl_min_le l _).2 x hx

theorem le_foldl_max : ∀ (l : List ℝ) (a : ℝ), a ≤ l.foldl max a ∧ ∀ x ∈ l, x ≤ l.foldl max a
  | [], a => ⟨le_rfl, by simp⟩
  | b :: l, a => by
    obtain ⟨h1, h2⟩ := le_foldl_max l (max a b)
    rw [List.foldl_cons]
    refine ⟨(le_max_left _ _).trans h1, fun x hx => ?_⟩
    rcases List.mem_cons.1 hx with rfl | hx
    · exact (le_max_right _ _).trans h1
    · exact h2 x hx

theorem le_maxOf {l : List ℝ} {x : ℝ} (hx : x ∈ l) : x ≤ maxOf l := (le_foldl_max l _).2 x hx

/-! ### The percentile -/

theorem sorted_ms (l : List ℝ) : (l.mergeSort fun a b => decide (a ≤ b)).Pairwise (· ≤ ·) := by
  have := List.pairwise_mergeSort (le := fun a b : ℝ => decide (a ≤ b))
    (fun a b c h1 h2 => by simp only [decide_eq_true_eq] at *; linarith)
    (fun a b => by simp only [Bool.or_eq_true, decide_eq_true_eq]; exact le_total a b) l
  exact this.imp (by intro a b h; simpa using h)

theorem perc_index {l : List ℝ} (h : 2 ≤ l.length) : ⌊((l.length : ℝ) - 1) * (10 / 100)⌋₊ + 1 < l.length := by
  have h2 : (2 : ℝ) ≤ l.length := by exact_mod_cast h
  have : ⌊((l.length : ℝ) - 1) * (10 / 100)⌋₊ < l.length - 1 := by
    rw [Nat.floor_lt (by nlinarith)]
    rw [Nat.cast_sub (by omega)]
    push_cast
    nlinarith
  omega

/-- The sorted entries, and the index of the percentile. -/
def sortOf (l : List ℝ) : List ℝ := l.mergeSort fun a b => decide (a ≤ b)
def percIdx (l : List ℝ) : ℕ := ⌊((l.length : ℝ) - 1) * (10 / 100)⌋₊

theorem sortOf_len (l : List ℝ) : (sortOf l).length = l.length := List.length_mergeSort l

theorem sortOf_mono (l : List ℝ) {i j : ℕ} (hij : i ≤ j) (hj : j < (sortOf l).length) :
    (sortOf l)[i]'(by omega) ≤ (sortOf l)[j] := by
  rcases Nat.eq_or_lt_of_le hij with rfl | h
  · exact le_rfl
  · exact List.pairwise_iff_getElem.1 (sorted_ms l) i j (hij.trans_lt hj) hj h

/-- Not above the next order statistic. -/
theorem perc_between {l : List ℝ} (h : 2 ≤ l.length) :
    ∃ hk : percIdx l + 1 < (sortOf l).length, percentile10 l ≤ (sortOf l)[percIdx l + 1] := by
  have hk : percIdx l + 1 < (sortOf l).length := by rw [sortOf_len]; exact perc_index h
  refine ⟨hk, ?_⟩
  have hle := sortOf_mono l (Nat.le_succ (percIdx l)) hk
  have hnn : 0 ≤ ((l.length : ℝ) - 1) * (10 / 100) := by
    have h2 : (2 : ℝ) ≤ l.length := by exact_mod_cast h
    nlinarith
  have f1 : (percIdx l : ℝ) ≤ _ := Nat.floor_le hnn
  have f2 : _ < (percIdx l : ℝ) + 1 := Nat.lt_floor_add_one (((l.length : ℝ) - 1) * (10 / 100))
  have e : percentile10 l = (sortOf l)[percIdx l]'(by omega) + (((l.length : ℝ) - 1) * (10 / 100) - percIdx l) *
      ((sortOf l)[percIdx l + 1] - (sortOf l)[percIdx l]'(by omega)) := by
    rw [← List.getD_eq_getElem _ 0 (show percIdx l < (sortOf l).length by omega), ← List.getD_eq_getElem _ 0 hk]
    rfl
  rw [e]
  nlinarith

theorem perc_le_max {l : List ℝ} (h : l ≠ []) : percentile10 l ≤ maxOf l := by
  rcases Nat.lt_or_ge l.length 2 with h1 | h2
  · obtain ⟨a, rfl⟩ : ∃ a, l = [a] := by
      match l, h, h1 with
      | [a], _, _ => exact ⟨a, rfl⟩
    simp [percentile10, maxOf]
  · obtain ⟨hk, h3⟩ := perc_between h2
    refine h3.trans (le_maxOf ?_)
    exact (List.mem_mergeSort.1 (List.getElem_mem hk))

/-- No more entries are below the percentile than its index says. -/
theorem perc_count (l : List ℝ) : l.countP (fun v => decide (v < percentile10 l)) ≤
    ⌊((l.length : ℝ) - 1) * (10 / 100)⌋₊ + 1 := by
  rcases Nat.lt_or_ge l.length 2 with h1 | h2
  · exact (List.countP_le_length).trans (by omega)
  · obtain ⟨hk, h3⟩ := perc_between h2
    have hp : l.countP (fun v => decide (v < percentile10 l)) = (sortOf l).countP fun v => decide (v < percentile10 l) :=
      (List.Perm.countP_eq _ (List.mergeSort_perm l _)).symm
    rw [hp, ← List.take_append_drop (percIdx l + 1) (sortOf l), List.countP_append]
    have hz : ((sortOf l).drop (percIdx l + 1)).countP (fun v => decide (v < percentile10 l)) = 0 := by
      rw [List.countP_eq_zero]
      intro v hv
      obtain ⟨j, hj, rfl⟩ := List.mem_iff_getElem.1 hv
      rw [List.getElem_drop]
      have hlen : percIdx l + 1 + j < (sortOf l).length := by rw [List.length_drop] at hj; omega
      have := sortOf_mono l (Nat.le_add_right (percIdx l + 1) j) hlen
      simp only [decide_eq_true_eq, not_lt]
      exact h3.trans this
    rw [hz, Nat.add_zero]
    exact (List.countP_le_length).trans (by rw [List.length_take]; exact min_le_left _ _)

/-! ### Blocks -/

theorem mem_cells {nx ny : ℕ} {q : ℕ × ℕ} : q ∈ cellsOf nx ny ↔ q.1 < nx ∧ q.2 < ny := by
  unfold cellsOf
  simp only [List.mem_flatMap, List.mem_map, List.mem_range]
  constructor
  · rintro ⟨x, hx, y, hy, rfl⟩; exact ⟨hx, hy⟩
  · intro h; exact ⟨q.1, h.1, q.2, h.2, rfl⟩

theorem axis_mem {n i j : ℕ} (hi : i < n) :
    j ∈ List.range' (blockLo i) (blockHi i n - blockLo i) ↔ j < n ∧ j ≤ i + 1 ∧ i ≤ j + 1 := by
  rw [List.mem_range'_1]
  unfold blockLo blockHi
  split_ifs <;> omega

theorem axis_len {n i : ℕ} (hi : i < n) : blockHi i n - blockLo i ≤ blockSteps i n ∧ 2 ≤ blockSteps i n := by
  unfold blockLo blockHi blockSteps
  split_ifs <;> omega

/-- Neighbours, with the cell itself: one row and one column away at most. -/
def Spec.Near (p q : ℕ × ℕ) : Prop := q.1 ≤ p.1 + 1 ∧ p.1 ≤ q.1 + 1 ∧ q.2 ≤ p.2 + 1 ∧ p.2 ≤ q.2 + 1

theorem mem_block {nx ny : ℕ} {p q : ℕ × ℕ} (hp : p ∈ cellsOf nx ny) :
    q ∈ blockOf nx ny p ↔ q ∈ cellsOf nx ny ∧ Spec.Near p q := by
  obtain ⟨h1, h2⟩ := mem_cells.1 hp
  rw [mem_cells]
  unfold blockOf Spec.Near
  simp only [List.mem_flatMap, List.mem_map]
  constructor
  · rintro ⟨x, hx, y, hy, rfl⟩
    have := (axis_mem h1).1 hx
    have := (axis_mem h2).1 hy
    exact ⟨⟨by omega, by omega⟩, by omega, by omega, by omega, by omega⟩
  · rintro ⟨⟨a, b⟩, c, d, e, f⟩
    exact ⟨q.1, (axis_mem h1).2 ⟨a, c, d⟩, q.2, (axis_mem h2).2 ⟨b, e, f⟩, rfl⟩

theorem block_len {nx ny : ℕ} {p : ℕ × ℕ} (hp : p ∈ cellsOf nx ny) :
    (blockOf nx ny p).length ≤ blockSteps p.1 nx * blockSteps p.2 ny ∧ 4 ≤ blockSteps p.1 nx * blockSteps p.2 ny := by
  obtain ⟨h1, h2⟩ := mem_cells.1 hp
  obtain ⟨a, b⟩ := axis_len h1
  obtain ⟨c, d⟩ := axis_len h2
  constructor
  · unfold blockOf
    rw [List.length_flatMap]
    simp only [List.length_map, List.length_range', List.map_const', List.sum_replicate, smul_eq_mul]
    exact Nat.mul_le_mul a c
  · exact Nat.mul_le_mul b d

theorem cells_nodup (nx ny : ℕ) : (cellsOf nx ny).Nodup := by
  unfold cellsOf
  rw [List.nodup_flatMap]
  refine ⟨fun x _ => (List.nodup_range).map (fun a b h => by simpa using h), ?_⟩
  exact (List.nodup_range).imp (fun {a b} hab => by
    rw [Function.onFun, List.disjoint_left]
    intro q hq hq'
    simp only [List.mem_map] at hq hq'
    obtain ⟨_, _, rfl⟩ := hq
    obtain ⟨_, _, h⟩ := hq'
    exact hab (by simpa using (congrArg Prod.fst h).symm))

theorem block_nodup (nx ny : ℕ) (p : ℕ × ℕ) : (blockOf nx ny p).Nodup := by
  unfold blockOf
  rw [List.nodup_flatMap]
  refine ⟨fun x _ => (List.nodup_range').map (fun a b h => by simpa using h), ?_⟩
  exact (List.nodup_range').imp (fun {a b} hab => by
    rw [Function.onFun, List.disjoint_left]
    intro q hq hq'
    simp only [List.mem_map] at hq hq'
    obtain ⟨_, _, rfl⟩ := hq
    obtain ⟨_, _, h⟩ := hq'
    exact hab (by simpa using (congrArg Prod.fst h).symm))

/-! ### Candidates -/

variable {nx ny : ℕ} {t : ErrTable}

/-- A table between passes: entries as they were or the largest. -/
def Spec.Masked (nx ny : ℕ) (t t' : ErrTable) (M : ℝ) : Prop := ∀ q ∈ cellsOf nx ny, t' q = t q ∨ t' q = M

theorem candStep_masked {t' : ErrTable} {th M : ℝ} (h : Spec.Masked nx ny t t' M) :
    Spec.Masked nx ny t (candStep nx ny th M t').2 M := by
  intro q hq
  simp only [candStep]
  split_ifs
  · exact Or.inr rfl
  · exact h q hq

/-- What one candidate is. -/
theorem candStep_spec {t' : ErrTable} {th M : ℝ} (hne : cellsOf nx ny ≠ []) : let c := (candStep nx ny th M t').1
    c.pos ∈ cellsOf nx ny ∧ c.val = t' c.pos ∧ (∀ q ∈ cellsOf nx ny, c.val ≤ t' q) ∧
    c.below = ((blockOf nx ny c.pos).map t').countP (fun v => decide (v < th)) ∧
    c.tol = blockSteps c.pos.1 nx * blockSteps c.pos.2 ny ∧ (0 < c.val → ∃ m, c.mean = some m) := by
  intro c
  have hmem : minOf ((cellsOf nx ny).map t') ∈ (cellsOf nx ny).map t' := minOf_mem (by simpa using hne)
  obtain ⟨q0, hq0, e0⟩ := List.mem_map.1 hmem
  obtain ⟨p, hp⟩ : ∃ p, (cellsOf nx ny).find? (fun q => decide (t' q = minOf ((cellsOf nx ny).map t'))) = some p := by
    have : ((cellsOf nx ny).find? (fun q => decide (t' q = minOf ((cellsOf nx ny).map t')))).isSome := by
      rw [List.find?_isSome]; exact ⟨q0, hq0, by simpa using e0⟩
    exact Option.isSome_iff_exists.1 this
  have hcp : c.pos = p := by
    simp only [c, candStep]
    rw [hp]; rfl
  have hval : c.val = minOf ((cellsOf nx ny).map t') := rfl
  have hpt : t' p = minOf ((cellsOf nx ny).map t') := by simpa using List.find?_some hp
  refine ⟨by rw [hcp]; exact List.mem_of_find?_eq_some hp, by rw [hcp, hpt, hval], ?_, ?_, rfl, ?_⟩
  · intro q hq; rw [hval]; exact minOf_le (List.mem_map.2 ⟨q, hq, rfl⟩)
  · rfl
  · intro h
    rw [hval] at h
    simp only [c, candStep]
    rw [if_neg (fun hh => h.ne' hh.1)]
    exact ⟨_, rfl⟩

/-- Every candidate comes from a masked table. -/
theorem candList_mem {th M : ℝ} : ∀ {n : ℕ} {t' : ErrTable} {c : Cand}, Spec.Masked nx ny t t' M →
    c ∈ candList nx ny th M n t' → ∃ t2, Spec.Masked nx ny t t2 M ∧ c = (candStep nx ny th M t2).1
  | 0, _, _, _, hc => by simp [candList] at hc
  | n + 1, t', c, h, hc => by
    rw [candList, List.mem_cons] at hc
    rcases hc with rfl | hc
    · exact ⟨t', h, rfl⟩
    · exact candList_mem (candStep_masked h) hc

/-- A candidate that passes the test: it is an entry of the table, and it and its neighbours are below the percentile,
and none of them is smaller. -/
theorem cand_pass {t' : ErrTable} (hne : cellsOf nx ny ≠ []) (h : Spec.Masked nx ny t t' (maxOf ((cellsOf nx ny).map t))) :
    let c := (candStep nx ny (percentile10 ((cellsOf nx ny).map t)) (maxOf ((cellsOf nx ny).map t)) t').1
    c.below = c.tol → c.val = t c.pos ∧ (∀ q ∈ cellsOf nx ny, Spec.Near c.pos q →
      t q < percentile10 ((cellsOf nx ny).map t) ∧ t c.pos ≤ t q) ∧ 4 ≤ (blockOf nx ny c.pos).length := by
  intro c hc
  obtain ⟨hpos, hval, hmin, hb, ht, -⟩ := candStep_spec (th := percentile10 ((cellsOf nx ny).map t))
    (M := maxOf ((cellsOf nx ny).map t)) (t' := t') hne
  have hlen := block_len hpos
  change c.pos ∈ _ at hpos
  change c.val = _ at hval
  change c.below = _ at hb
  change c.tol = _ at ht
  have hcount : ((blockOf nx ny c.pos).map t').countP (fun v => decide (v < percentile10 ((cellsOf nx ny).map t))) =
      ((blockOf nx ny c.pos).map t').length := by
    have h1 := List.countP_le_length (p := fun v => decide (v < percentile10 ((cellsOf nx ny).map t)))
      (l := (blockOf nx ny c.pos).map t')
    have h2 : ((blockOf nx ny c.pos).map t').length ≤ c.tol := by rw [List.length_map, ht]; exact hlen.1
    rw [← hc, hb] at h2
    exact le_antisymm h1 h2
  have hall := List.countP_eq_length.1 hcount
  have key : ∀ q ∈ blockOf nx ny c.pos, t' q = t q ∧ t q < percentile10 ((cellsOf nx ny).map t) := by
    intro q hq
    have hlt : t' q < percentile10 ((cellsOf nx ny).map t) := by simpa using hall (t' q) (List.mem_map.2 ⟨q, hq, rfl⟩)
    have hq' := ((mem_block hpos).1 hq).1
    rcases h q hq' with e | e
    · exact ⟨e, by rw [← e]; exact hlt⟩
    · have := perc_le_max (l := (cellsOf nx ny).map t) (by simpa using hne)
      rw [e] at hlt
      exact absurd hlt (not_lt.2 this)
  have hself : c.pos ∈ blockOf nx ny c.pos := (mem_block hpos).2 ⟨hpos, by unfold Spec.Near; omega⟩
  have hv : c.val = t c.pos := by rw [hval, (key _ hself).1]
  refine ⟨hv, fun q hq hnear => ?_, ?_⟩
  · have hk := key q ((mem_block hpos).2 ⟨hq, hnear⟩)
    refine ⟨hk.2, ?_⟩
    have := hmin q hq
    change c.val ≤ _ at this
    rw [← hv, ← hk.1]; exact this
  · have : ((blockOf nx ny c.pos).map t').length = c.tol := by rw [← hcount, ← hb, hc]
    rw [List.length_map] at this
    rw [this, ht]; exact hlen.2

/-- The smallest entry of a table of positive numbers, in one cell only. -/
structure Spec.OneMin (nx ny : ℕ) (t : ErrTable) (p : ℕ × ℕ) : Prop where
  cell : p ∈ cellsOf nx ny
  pos : ∀ q ∈ cellsOf nx ny, 0 < t q
  least : ∀ q ∈ cellsOf nx ny, q ≠ p → t p < t q

theorem mapM_some {l : List Cand} (h : ∀ c ∈ l, ∃ m, c.mean = some m) : ∃ ms, l.mapM Cand.mean = some ms ∧
    ms.length = l.length ∧ ∀ m ∈ ms, ∃ c ∈ l, c.mean = some m := by
  induction l with
  | nil => exact ⟨[], rfl, rfl, by simp⟩
  | cons c l ih =>
    obtain ⟨m, hm⟩ := h c List.mem_cons_self
    obtain ⟨ms, e, hl, hs⟩ := ih fun c hc => h c (List.mem_cons_of_mem _ hc)
    refine ⟨m :: ms, by simp [List.mapM_cons, hm, e], by simp [hl], fun x hx => ?_⟩
    rcases List.mem_cons.1 hx with rfl | hx
    · exact ⟨c, List.mem_cons_self, hm⟩
    · obtain ⟨c', hc', e'⟩ := hs x hx
      exact ⟨c', List.mem_cons_of_mem _ hc', e'⟩

theorem bestCand_ok {l : List Cand} (hne : l ≠ []) (h : ∀ c ∈ l, ∃ m, c.mean = some m) : ∃ c ∈ l, bestCand l = .ok c := by
  obtain ⟨ms, e, hl, hs⟩ := mapM_some h
  have hmne : ms ≠ [] := by
    intro h0; rw [h0] at hl; exact hne (List.length_eq_zero_iff.1 hl.symm)
  obtain ⟨c0, hc0, e0⟩ := hs _ (minOf_mem hmne)
  unfold bestCand
  rw [e]
  simp only
  have hs : (l.find? fun c => decide (c.mean = some (minOf ms))).isSome := by
    rw [List.find?_isSome]; exact ⟨c0, hc0, by simpa using e0⟩
  obtain ⟨c, hc⟩ := Option.isSome_iff_exists.1 hs
  rw [hc]
  exact ⟨c, List.mem_of_find?_eq_some hc, rfl⟩

theorem filter_one {p : ℕ × ℕ} (h : Spec.OneMin nx ny t p) : minOf ((cellsOf nx ny).map t) = t p ∧
    ∀ [DecidablePred fun q => t q = minOf ((cellsOf nx ny).map t)],
      ((cellsOf nx ny).filter fun q => decide (t q = minOf ((cellsOf nx ny).map t))) = [p] := by
  have hm : minOf ((cellsOf nx ny).map t) = t p := by
    obtain ⟨q, hq, e⟩ := List.mem_map.1 (minOf_mem (l := (cellsOf nx ny).map t) (by
      intro h0; rw [List.map_eq_nil_iff] at h0; exact List.ne_nil_of_mem h.cell h0))
    have h1 : minOf ((cellsOf nx ny).map t) ≤ t p := minOf_le (List.mem_map.2 ⟨p, h.cell, rfl⟩)
    by_cases hqp : q = p
    · rw [← e, hqp]
    · have := h.least q hq hqp; linarith
  refine ⟨hm, fun {_} => ?_⟩
  apply List.Perm.eq_singleton
  rw [List.perm_ext_iff_of_nodup ((cells_nodup nx ny).filter _) (List.nodup_singleton p)]
  intro q
  rw [List.mem_filter, List.mem_singleton, decide_eq_true_eq, hm]
  constructor
  · rintro ⟨hq, e⟩
    by_contra hne
    exact absurd (h.least q hq hne) (by rw [e]; exact lt_irrefl _)
  · rintro rfl; exact ⟨h.cell, rfl⟩

/-- C132, in full: for a table of positive errors the cell returned has the smallest, and its value is returned. -/
def C132 : Prop := ∀ (nx ny : ℕ) (t : ErrTable), cellsOf nx ny ≠ [] → (∀ q ∈ cellsOf nx ny, 0 < t q) →
  ∃ q ∈ cellsOf nx ny, findMinimum nx ny t = .ok (q, t q) ∧ ∀ r ∈ cellsOf nx ny, t q ≤ t r

/-- C132 with the smallest error in one cell: an entry is returned, the smallest or one that is below the tenth
percentile with all its neighbours and not above any of them. -/
theorem c132_partial {p : ℕ × ℕ} (h : Spec.OneMin nx ny t p) : ∃ q ∈ cellsOf nx ny, findMinimum nx ny t = .ok (q, t q) ∧
    (q = p ∨ (∀ r ∈ cellsOf nx ny, Spec.Near q r → t r < percentile10 ((cellsOf nx ny).map t) ∧ t q ≤ t r) ∧
      4 ≤ (blockOf nx ny q).length) := by
  have hne : cellsOf nx ny ≠ [] := List.ne_nil_of_mem h.cell
  have hmax : 0 < maxOf ((cellsOf nx ny).map t) :=
    (h.pos p h.cell).trans_le (le_maxOf (List.mem_map.2 ⟨p, h.cell, rfl⟩))
  have hm0 : Spec.Masked nx ny t t (maxOf ((cellsOf nx ny).map t)) := fun q _ => Or.inl rfl
  obtain ⟨c, hc, ec⟩ := bestCand_ok (l := candList nx ny (percentile10 ((cellsOf nx ny).map t))
    (maxOf ((cellsOf nx ny).map t)) 10 t) (by simp [candList]) (fun c hc => by
      obtain ⟨t2, hm, rfl⟩ := candList_mem hm0 hc
      obtain ⟨hpos, hval, -, -, -, hmean⟩ := candStep_spec (th := percentile10 ((cellsOf nx ny).map t))
        (M := maxOf ((cellsOf nx ny).map t)) (t' := t2) hne
      refine hmean ?_
      rw [hval]
      rcases hm _ hpos with e | e
      · rw [e]; exact h.pos _ hpos
      · rw [e]; exact hmax)
  obtain ⟨t2, hm, rfl⟩ := candList_mem hm0 hc
  obtain ⟨e1, e2⟩ := filter_one h
  have heq : findMinimum nx ny t = .ok (if (candStep nx ny (percentile10 ((cellsOf nx ny).map t))
      (maxOf ((cellsOf nx ny).map t)) t2).1.below = (candStep nx ny (percentile10 ((cellsOf nx ny).map t))
      (maxOf ((cellsOf nx ny).map t)) t2).1.tol then ((candStep nx ny (percentile10 ((cellsOf nx ny).map t))
      (maxOf ((cellsOf nx ny).map t)) t2).1.pos, (candStep nx ny (percentile10 ((cellsOf nx ny).map t))
      (maxOf ((cellsOf nx ny).map t)) t2).1.val) else (p, t p)) := by
    unfold findMinimum
    simp only
    rw [if_neg (by simpa using hne), e2]
    simp only
    rw [ec]
    simp only [e1]
  rw [heq]
  split_ifs with hb
  · obtain ⟨v1, v2, v3⟩ := cand_pass hne hm hb
    have hpos := (candStep_spec (th := percentile10 ((cellsOf nx ny).map t))
      (M := maxOf ((cellsOf nx ny).map t)) (t' := t2) hne).1
    exact ⟨_, hpos, by rw [v1], Or.inr ⟨v2, v3⟩⟩
  · exact ⟨p, h.cell, rfl, Or.inl rfl⟩

/-- C132 for tables of at most forty cells: the smallest. -/
theorem c132_small {p : ℕ × ℕ} (h : Spec.OneMin nx ny t p) (hs : nx * ny ≤ 40) :
    findMinimum nx ny t = .ok (p, t p) := by
  obtain ⟨q, hq, e, h1 | ⟨h1, h2⟩⟩ := c132_partial h
  · rw [e, h1]
  · by_cases hqp : q = p
    · rw [e, hqp]
    exfalso
    have hlen : (cellsOf nx ny).length = nx * ny := by
      unfold cellsOf; rw [List.length_flatMap]; simp
    have hc := perc_count ((cellsOf nx ny).map t)
    rw [List.length_map, hlen] at hc
    have hfl : ⌊(((nx * ny : ℕ) : ℝ) - 1) * (10 / 100)⌋₊ ≤ 3 := by
      have : (((nx * ny : ℕ) : ℝ) - 1) * (10 / 100) < 4 := by
        have : ((nx * ny : ℕ) : ℝ) ≤ 40 := by exact_mod_cast hs
        linarith
      exact Nat.lt_succ_iff.1 ((Nat.floor_lt' (by norm_num)).2 this)
    -- the block and the minimum are all below the percentile
    have hlt := h.least q hq hqp
    have hself := (h1 q hq (by unfold Spec.Near; omega)).1
    have hnot : p ∉ blockOf nx ny q := by
      intro hp
      have := (h1 p h.cell ((mem_block hq).1 hp).2).2
      linarith
    have hsub : (p :: blockOf nx ny q).Subperm ((cellsOf nx ny).filter
        ((fun v => decide (v < percentile10 ((cellsOf nx ny).map t))) ∘ t)) := by
      refine (List.nodup_cons.2 ⟨hnot, block_nodup nx ny q⟩).subperm ?_
      intro r hr
      rw [List.mem_filter]
      rcases List.mem_cons.1 hr with rfl | hr
      · exact ⟨h.cell, by simpa using hlt.trans hself⟩
      · obtain ⟨hrc, hn⟩ := (mem_block hq).1 hr
        exact ⟨hrc, by simpa using (h1 r hrc hn).1⟩
    have := hsub.length_le
    rw [List.countP_map, List.countP_eq_length_filter] at hc
    rw [List.length_cons] at this
    omega

/-- C132 with the smallest error in two cells: an exception. -/
theorem c132_ties {p q : ℕ × ℕ} (hp : p ∈ cellsOf nx ny) (hq : q ∈ cellsOf nx ny) (hpq : p ≠ q) (he : t p = t q)
    (hm : ∀ r ∈ cellsOf nx ny, t p ≤ t r) : findMinimum nx ny t = .error .typeError := by
  have hmin : minOf ((cellsOf nx ny).map t) = t p := by
    obtain ⟨r, hr, e⟩ := List.mem_map.1 (minOf_mem (l := (cellsOf nx ny).map t) (by
      intro h0; rw [List.map_eq_nil_iff] at h0; exact List.ne_nil_of_mem hp h0))
    exact le_antisymm (minOf_le (List.mem_map.2 ⟨p, hp, rfl⟩)) (by rw [← e]; exact hm r hr)
  unfold findMinimum
  simp only
  rw [if_neg (by simpa using List.ne_nil_of_mem hp), hmin]
  have h1 : p ∈ (cellsOf nx ny).filter fun r => decide (t r = t p) := by rw [List.mem_filter]; exact ⟨hp, by simp⟩
  have h2 : q ∈ (cellsOf nx ny).filter fun r => decide (t r = t p) := by
    rw [List.mem_filter]; exact ⟨hq, by simpa using he.symm⟩
  split
  · rename_i x hx
    rw [hx, List.mem_singleton] at h1 h2
    exact absurd (h1.trans h2.symm) hpq
  · rfl

theorem c132_false : ¬ C132 := by
  intro h
  obtain ⟨q, -, e, -⟩ := h 1 2 (fun _ => 1) (by decide) (fun _ _ => one_pos)
  rw [c132_ties (p := (0, 0)) (q := (0, 1)) (by decide) (by decide) (by decide) rfl (fun _ _ => le_rfl)] at e
  exact absurd e (by simp)

/-- A grid of five by five with one smallest error. -/
example : findMinimum 5 5 (fun q => ((q.1 : ℝ) - 2) ^ 2 + ((q.2 : ℝ) - 3) ^ 2 + 1) = .ok ((2, 3), 1) := by
  have := c132_small (nx := 5) (ny := 5) (p := (2, 3)) (t := fun q => ((q.1 : ℝ) - 2) ^ 2 + ((q.2 : ℝ) - 3) ^ 2 + 1)
    ⟨by decide, fun q _ => by positivity, fun q _ hq => by
      have hne : (q.1 : ℝ) ≠ 2 ∨ (q.2 : ℝ) ≠ 3 := by
        by_contra hc
        push Not at hc
        exact hq (Prod.ext (by exact_mod_cast hc.1) (by exact_mod_cast hc.2))
      rcases hne with h | h
      · have := pow_pos (abs_pos.2 (sub_ne_zero.2 h)) 2
        rw [sq_abs] at this
        push_cast
        nlinarith [sq_nonneg ((q.2 : ℝ) - 3)]
      · have := pow_pos (abs_pos.2 (sub_ne_zero.2 h)) 2
        rw [sq_abs] at this
        push_cast
        nlinarith [sq_nonneg ((q.1 : ℝ) - 2)]⟩ (by norm_num)
  rw [this]
  norm_num

end
end WTM
