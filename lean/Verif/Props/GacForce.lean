import Mathlib.Tactic
import Verif.Props.GacCapacity
import Verif.Props.GacRunAll
import Verif.Model.GacForce

/-! C198-C200: the capacity from a day of breakthrough given by the user, and the isotherm table of an object. -/
set_option autoImplicit false
namespace WTM
noncomputable section

variable {i : CapIn} {lsq : List (ℝ × ℝ) → ℝ × ℝ} {day x : ℝ} {c carbon : String} {comps : List String}
  {rows : List BrkRow} {inp : String → CapIn} {t t' : KTab}

/-! ### C198 -/

/-- `K`, `q`, time and average influent as the uptake up to day `T`: mass balance over the carbon, average of the
influent over that time, Freundlich equation. -/
structure Spec.UptakeTo (i : CapIn) (o : CapOut) (T : ℝ) : Prop where
  time : o.brk = T
  mean : o.aveC * T = ∫ s in (0 : ℝ)..T, interpExtrap i.infl s
  mass : o.q * i.wt = i.flrt * i.flowMult * i.tMult * i.massMul *
    ((∫ s in (0 : ℝ)..T, interpExtrap i.infl s) - ∫ s in (0 : ℝ)..T, interpExtrap i.effl s)
  freundlich : 0 < o.aveC * i.massMul → o.k * (o.aveC * i.massMul) ^ i.xn = o.q

/-- C198, full statement: the estimate is the uptake up to the day given. -/
def C198 : Prop := ∀ (i : CapIn) (lsq : List (ℝ × ℝ) → ℝ × ℝ) (day : ℝ), Spec.CapData i → i.wt ≠ 0 → 0 < day →
  Spec.UptakeTo i (capForce i lsq day) day

theorem forceOut_mass {infl effl : List (ℝ × ℝ)} {T a : ℝ} (hw : i.wt ≠ 0) :
    (forceOut i infl effl T a).q * i.wt = i.flrt * i.flowMult * i.tMult * i.massMul *
      ((∫ s in (0 : ℝ)..T, interpExtrap infl s) - ∫ s in (0 : ℝ)..T, interpExtrap effl s) := by
  simp only [forceOut, loadTo, CapIn.flow]
  rw [div_mul_cancel₀ _ hw]
  ring

theorem forceOut_freundlich {infl effl : List (ℝ × ℝ)} {T a : ℝ} (ha : 0 < a * i.massMul) :
    (forceOut i infl effl T a).k * (a * i.massMul) ^ i.xn = (forceOut i infl effl T a).q :=
  div_mul_cancel₀ _ (Real.rpow_pos_of_pos ha _).ne'

/-- C198 for a day below 2000 other than 1000. Missing: 1000, and 2000 or later, which have meanings of their own. -/
theorem c198_partial (hw : i.wt ≠ 0) (h0 : 0 < day) (h1 : day < 2000) (h2 : day ≠ 1000) :
    Spec.UptakeTo i (capForce i lsq day) day ∧ (capForce i lsq day).code = "supplied" := by
  have e : capForce i lsq day = forceOut i i.infl i.effl day (loadTo i.infl day / day) := by
    unfold capForce
    rw [if_pos h1, if_neg h2]
  rw [e]
  exact ⟨⟨rfl, div_mul_cancel₀ _ h0.ne', forceOut_mass hw, fun h => forceOut_freundlich h⟩, rfl⟩

/-- C198. Day 1000: the whole of the data, with the plain average of the influent samples. -/
theorem c198_thousand (hw : i.wt ≠ 0) : let o := capForce i lsq 1000
    o.brk = i.duration ∧ o.aveC = meanOf (i.infl.map Prod.snd) ∧
    o.q * i.wt = i.flrt * i.flowMult * i.tMult * i.massMul *
      ((∫ s in (0 : ℝ)..i.duration, interpExtrap i.infl s) - ∫ s in (0 : ℝ)..i.duration, interpExtrap i.effl s) ∧
    (0 < o.aveC * i.massMul → o.k * (o.aveC * i.massMul) ^ i.xn = o.q) := by
  intro o
  have e : o = forceOut i i.infl i.effl i.duration i.aveC := by
    show capForce i lsq 1000 = _
    unfold capForce
    rw [if_pos (by norm_num), if_pos rfl]
  rw [e]
  exact ⟨rfl, rfl, forceOut_mass hw, fun h => forceOut_freundlich h⟩

/-- C198. A day after 2000: no capacity at all, under the same code. -/
theorem c198_none (h : 2000 < day) : let o := capForce i lsq day
    o.k = 0 ∧ o.q = 0 ∧ o.code = "supplied" ∧ o.brk = i.duration := by
  intro o
  have e : o = ⟨0, 0, "supplied", i.duration, i.aveC, onesTab⟩ := by
    show capForce i lsq day = _
    unfold capForce
    rw [if_neg (by linarith), if_neg (by linarith)]
  rw [e]
  exact ⟨rfl, rfl, rfl, rfl⟩

theorem appendPoint_last {T v : ℝ} : ∀ {l : List (ℝ × ℝ)}, (∀ r ∈ l, r.1 ≤ T) → appendPoint l T v = l ++ [(T, v)]
  | [], _ => rfl
  | a :: l, h => by
    rw [appendPoint, if_neg (not_lt.2 (h a List.mem_cons_self)),
      appendPoint_last fun r hr => h r (List.mem_cons_of_mem _ hr)]
    rfl

/-- C198. Day 2000 with a line that rises: the time is where the line through the last effluent samples reaches the
average influent; if that is after the data, both curves go on to it in a straight line, and the estimate is the uptake
up to there. -/
theorem c198_line (hd : Spec.CapData i) (hw : i.wt ≠ 0) {m b : ℝ}
    (hl : lsq (linePts i.effl) = (m, b)) (hm : 0 < m) (hT : m * i.duration + b < i.aveC) : let o := capForce i lsq 2000
    let infl := i.infl ++ [(o.brk, meanOf (i.infl.map Prod.snd))]
    let effl := i.effl ++ [(o.brk, meanOf (i.infl.map Prod.snd))]
    m * o.brk + b = meanOf (i.infl.map Prod.snd) ∧ i.duration < o.brk ∧
    interpExtrap infl o.brk = interpExtrap effl o.brk ∧
    (∀ s, (∃ r ∈ i.rows, s ≤ r.1) → interpExtrap infl s = interpExtrap i.infl s ∧ interpExtrap effl s = interpExtrap i.effl s) ∧
    o.q * i.wt = i.flrt * i.flowMult * i.tMult * i.massMul *
      ((∫ s in (0 : ℝ)..o.brk, interpExtrap infl s) - ∫ s in (0 : ℝ)..o.brk, interpExtrap effl s) ∧
    o.aveC * o.brk = (∫ s in (0 : ℝ)..o.brk, interpExtrap infl s) ∧
    (0 < o.aveC * i.massMul → o.k * (o.aveC * i.massMul) ^ i.xn = o.q) := by
  intro o infl effl
  have hTe : lineTime i lsq = (i.aveC - b) / m := by
    unfold lineTime
    simp only [hl]
    rw [if_pos hm]
  have hlast : i.duration < lineTime i lsq := by
    rw [hTe, lt_div_iff₀ hm]
    linarith
  have hin : ∀ r ∈ i.infl, r.1 ≤ lineTime i lsq := by
    intro r hr
    obtain ⟨y, hy, rfl⟩ := List.mem_map.1 hr
    exact (hd.last.2 y hy).trans hlast.le
  have hen : ∀ r ∈ i.effl, r.1 ≤ lineTime i lsq := by
    intro r hr
    obtain ⟨y, hy, rfl⟩ := List.mem_map.1 hr
    exact (hd.last.2 y hy).trans hlast.le
  have e : o = forceOut i (i.infl ++ [(lineTime i lsq, i.aveC)]) (i.effl ++ [(lineTime i lsq, i.aveC)]) (lineTime i lsq)
      (loadTo (i.infl ++ [(lineTime i lsq, i.aveC)]) (lineTime i lsq) / lineTime i lsq) := by
    show capForce i lsq 2000 = _
    unfold capForce
    rw [if_neg (by norm_num), if_pos rfl]
    simp only
    rw [appendPoint_last hin, appendPoint_last hen]
  have hb : o.brk = lineTime i lsq := by rw [e]; rfl
  have hpos : 0 < lineTime i lsq := (duration_pos hd).trans hlast
  have hinc : ∀ {l : List (ℝ × ℝ)} {T v : ℝ}, Spec.Increasing l → (∀ r ∈ l, r.1 < T) → Spec.Increasing (l ++ [(T, v)]) := by
    intro l T v h1 h2
    refine List.pairwise_append.2 ⟨h1, List.pairwise_singleton _ _, fun a ha b hb => ?_⟩
    rw [List.mem_singleton] at hb
    rw [hb]
    exact h2 a ha
  have hltI : ∀ r ∈ i.infl, r.1 < lineTime i lsq := by
    intro r hr
    obtain ⟨y, hy, rfl⟩ := List.mem_map.1 hr
    exact (hd.last.2 y hy).trans_lt hlast
  have hltE : ∀ r ∈ i.effl, r.1 < lineTime i lsq := by
    intro r hr
    obtain ⟨y, hy, rfl⟩ := List.mem_map.1 hr
    exact (hd.last.2 y hy).trans_lt hlast
  obtain ⟨r0, r1, rl, hrows, -⟩ := hd.start
  have hlenI : 2 ≤ i.infl.length := by simp [CapIn.infl, hrows]
  have hlenE : 2 ≤ i.effl.length := by simp [CapIn.effl, hrows]
  have hnode : ∀ {l : List (ℝ × ℝ)}, Spec.Increasing l → (∀ r ∈ l, r.1 < lineTime i lsq) → 2 ≤ l.length →
      interpExtrap (l ++ [(lineTime i lsq, i.aveC)]) (lineTime i lsq) = i.aveC := by
    intro l h1 h2 h3
    exact interpExtrap_node (r := (lineTime i lsq, i.aveC)) (hinc h1 h2) (by simp; omega) (by simp)
  have hkeep : ∀ {l : List (ℝ × ℝ)} {y : ℝ × ℝ}, 2 ≤ l.length → ∀ s, (∃ r ∈ l, s ≤ r.1) → Spec.Increasing l →
      interpExtrap (l ++ [y]) s = interpExtrap l s := by
    intro l y
    induction l with
    | nil => intro h; simp at h
    | cons a l ih =>
      intro h s hs hi
      rcases l with _ | ⟨a1, l⟩
      · simp at h
      · rcases l with _ | ⟨a2, l⟩
        · show interpExtrap [a, a1, y] s = interpExtrap [a, a1] s
          rw [interpExtrap, if_pos, interpExtrap]
          obtain ⟨r, hr, hs⟩ := hs
          simp only [List.mem_cons, List.not_mem_nil, or_false] at hr
          rcases hr with rfl | rfl
          · exact hs.trans ((List.pairwise_cons.1 hi).1 a1 (by simp)).le
          · exact hs
        · show interpExtrap (a :: a1 :: a2 :: (l ++ [y])) s = interpExtrap (a :: a1 :: a2 :: l) s
          rw [interpExtrap, interpExtrap]
          by_cases hc : s ≤ a1.1
          · rw [if_pos hc, if_pos hc]
          · rw [if_neg hc, if_neg hc]
            refine ih (by simp) s ?_ (List.pairwise_cons.1 hi).2
            obtain ⟨r, hr, hs⟩ := hs
            rcases List.mem_cons.1 hr with rfl | hr
            · exact absurd (hs.trans ((List.pairwise_cons.1 hi).1 a1 (by simp)).le) hc
            · exact ⟨r, hr, hs⟩
  have hfold : meanOf (i.infl.map Prod.snd) = i.aveC := rfl
  have hinfl : infl = i.infl ++ [(lineTime i lsq, i.aveC)] := by show i.infl ++ [(o.brk, _)] = _; rw [hb, hfold]
  have heffl : effl = i.effl ++ [(lineTime i lsq, i.aveC)] := by show i.effl ++ [(o.brk, _)] = _; rw [hb, hfold]
  rw [hinfl, heffl, hb, hfold]
  refine ⟨?_, hlast, ?_, ?_, ?_, ?_, ?_⟩
  · rw [hTe, mul_div_cancel₀ _ hm.ne']; ring
  · rw [hnode hd.infl_inc hltI hlenI, hnode hd.effl_inc hltE hlenE]
  · rintro s ⟨r, hr, hs⟩
    exact ⟨hkeep hlenI s ⟨_, List.mem_map_of_mem hr, hs⟩ hd.infl_inc, hkeep hlenE s ⟨_, List.mem_map_of_mem hr, hs⟩ hd.effl_inc⟩
  · rw [e]; exact forceOut_mass hw
  · rw [e]; exact div_mul_cancel₀ _ hpos.ne'
  · rw [e]; exact fun h => forceOut_freundlich h

/-- C198. Day 2000 with a line that does not rise: the end of the data. -/
theorem c198_flat (h : (lsq (linePts i.effl)).1 ≤ 0) : (capForce i lsq 2000).brk = i.duration := by
  unfold capForce
  rw [if_neg (by norm_num), if_pos rfl]
  show lineTime i lsq = _
  unfold lineTime
  simp only
  rw [if_neg (not_lt.2 h)]

/-- C198. The line of day 2000 goes through the effluent samples from the last zero before breakthrough on, no more and
no fewer, when all samples after breakthrough are nonzero. -/
theorem c198_rows {A B : List (ℝ × ℝ)} {x : ℝ × ℝ} (he : i.effl = A ++ x :: B) (hA : ∀ y ∈ A, y.2 = 0) (hx : x.2 = 0)
    (hB : ∀ y ∈ B, y.2 ≠ 0) :
    (capForce i lsq 2000).brk =
      if 0 < (lsq (x :: B)).1 then (i.aveC - (lsq (x :: B)).2) / (lsq (x :: B)).1 else i.duration := by
  have hc : linePts i.effl = x :: B := by
    have h1 : (A.map Prod.snd).countP (fun v => decide (v ≠ 0)) = 0 := by
      rw [List.countP_eq_zero]
      intro v hv
      obtain ⟨y, hy, rfl⟩ := List.mem_map.1 hv
      simp [hA y hy]
    have h2 : (B.map Prod.snd).countP (fun v => decide (v ≠ 0)) = B.length := by
      rw [← List.length_map (f := Prod.snd), List.countP_eq_length]
      intro v hv
      obtain ⟨y, hy, rfl⟩ := List.mem_map.1 hv
      simp [hB y hy]
    unfold linePts
    rw [he, List.map_append, List.map_cons, List.countP_append, List.countP_cons, h1, h2]
    simp [hx]
  unfold capForce
  rw [if_neg (by norm_num), if_pos rfl]
  show lineTime i lsq = _
  unfold lineTime
  rw [hc]

example : (capForce exCap3 lsq 2000).brk = if 0 < (lsq [(0, 0), (2, 8), (3, 12), (5, 12)]).1 then
    (exCap3.aveC - (lsq [(0, 0), (2, 8), (3, 12), (5, 12)]).2) / (lsq [(0, 0), (2, 8), (3, 12), (5, 12)]).1
    else exCap3.duration :=
  c198_rows (A := []) (x := (0, 0)) (B := [(2, 8), (3, 12), (5, 12)]) (by simp [CapIn.effl, exCap3]) (by simp) rfl
    (by simp)

theorem c198_false : ¬ C198 := by
  intro h
  have := (h (exCap 10) (fun _ => (0, 0)) 3000 (exCap_data (by norm_num)) (by norm_num [exCap]) (by norm_num)).time
  rw [(c198_none (by norm_num)).2.2.2] at this
  norm_num [exCap] at this

example : Spec.UptakeTo (exCap 10) (capForce (exCap 10) (fun _ => (0, 0)) 4) 4 :=
  (c198_partial (by norm_num [exCap]) (by norm_num) (by norm_num) (by norm_num)).1

/-- A line that rises slowly: hypotheses of `c198_line`. -/
example : (10 : ℝ) < (capForce (exCap 10) (fun _ => (0.1, 5)) 2000).brk :=
  (c198_line (m := 0.1) (b := 5) (exCap_data (by norm_num)) (by norm_num [exCap]) rfl (by norm_num)
    (by norm_num [exCap, CapIn.aveC, CapIn.infl, meanOf])).2.1

/-! ### C199 -/

/-- C199, full statement: for every 1/n of the grid the function of the estimate gives the `K` that goes with `q`. -/
def C199 : Prop := ∀ (i : CapIn) (lsq : List (ℝ × ℝ) → ℝ × ℝ) (day x : ℝ), Spec.CapData i → x ∈ xnGrid →
  0 < (capForce i lsq day).aveC * i.massMul →
  ∃ k, forceKFun i lsq day x = .ok k ∧ k * ((capForce i lsq day).aveC * i.massMul) ^ x = (capForce i lsq day).q

theorem capForce_tab : (capForce i lsq day).kTab = onesTab := by
  unfold capForce
  split_ifs <;> rfl

theorem onesTab_ends : (onesTab.headD (0, 0)).1 = 0.15 ∧ (onesTab.getLastD (0, 0)).1 = 1 := by
  have h : onesTab = (List.range 86).map fun k : ℕ => ((0.15 + 0.01 * (k : ℝ), (1 : ℝ)) : ℝ × ℝ) := by
    unfold onesTab xnGrid
    rw [List.map_map]
    rfl
  constructor
  · rw [h, List.range_succ_eq_map]
    simp
  · rw [h, List.range_succ, List.map_append]
    simp only [List.map_cons, List.map_nil, List.getLastD_eq_getLast?, List.getLast?_concat, Option.getD_some]
    norm_num

theorem interp_const {v : ℝ} : ∀ {l : List (ℝ × ℝ)}, (∀ r ∈ l, r.2 = v) → 2 ≤ l.length → ∀ s, interpExtrap l s = v
  | [], _, h2, _ => by simp at h2
  | [a], _, h2, _ => by simp at h2
  | [a, b], h, _, s => by
    rw [interpExtrap, h a (by simp), h b (by simp)]
    simp
  | a :: b :: d :: l, h, _, s => by
    rw [interpExtrap]
    split_ifs
    · rw [h a (by simp), h b (by simp)]
      simp
    · exact interp_const (fun r hr => h r (List.mem_cons_of_mem _ hr)) (by simp) s

/-- C199. It is one everywhere from 0.15 to 1, whatever the data and the day, and raises elsewhere. -/
theorem c199_one (i : CapIn) (lsq : List (ℝ × ℝ) → ℝ × ℝ) (day x : ℝ) :
    (0.15 ≤ x → x ≤ 1 → forceKFun i lsq day x = .ok 1) ∧ (x < 0.15 ∨ 1 < x → forceKFun i lsq day x = .error .valueError) := by
  obtain ⟨e1, e2⟩ := onesTab_ends
  unfold forceKFun interpStrict
  rw [capForce_tab, e1, e2]
  constructor
  · intro h1 h2
    rw [if_neg (by rintro (h | h) <;> linarith), interp_const]
    · intro r hr
      obtain ⟨y, -, rfl⟩ := List.mem_map.1 hr
      rfl
    · simp [onesTab, xnGrid]
  · intro h
    rw [if_pos h]

theorem xnGrid_range (h : x ∈ xnGrid) : 0.15 ≤ x ∧ x ≤ 1 := by
  obtain ⟨k, hk, rfl⟩ := c123_grid.1 h
  have h1 : (k : ℝ) ≤ 85 := by exact_mod_cast hk
  have h0 : (0 : ℝ) ≤ k := Nat.cast_nonneg k
  constructor <;> linarith

/-- C199 exactly where it holds: where `q` happens to be the value for `K` one. -/
theorem c199_partial (hx : x ∈ xnGrid) :
    (∃ k, forceKFun i lsq day x = .ok k ∧ k * ((capForce i lsq day).aveC * i.massMul) ^ x = (capForce i lsq day).q) ↔
      (capForce i lsq day).q = ((capForce i lsq day).aveC * i.massMul) ^ x := by
  obtain ⟨h1, h2⟩ := xnGrid_range hx
  rw [(c199_one i lsq day x).1 h1 h2]
  constructor
  · rintro ⟨k, hk, he⟩
    simp only [Except.ok.injEq] at hk
    rw [← he, ← hk, one_mul]
  · intro h
    exact ⟨1, rfl, by rw [h, one_mul]⟩

/-- C199. So a search over `K` and 1/n tries the factors themselves, not multiples of the estimate. -/
theorem c199_search {o : GacObj} {f : ℝ → ℝ} (hf : o.kByXn c = some f)
    (hk : ∀ y, forceKFun i lsq day y = .ok (f y) ∨ forceKFun i lsq day y = .error .valueError) (hx : x ∈ xnGrid) (s : Srch)
    (hs : s.obj = o) : (∀ a, kMultOf o c x * a = a) ∧ baseK c x s = 1 := by
  obtain ⟨h1, h2⟩ := xnGrid_range hx
  have : f x = 1 := by
    have h3 := (c199_one i lsq day x).1 h1 h2
    rcases hk x with h | h
    · rw [h3, Except.ok.injEq] at h
      exact h.symm
    · rw [h3] at h
      cases h
  refine ⟨fun a => ?_, ?_⟩
  · simp only [kMultOf, hf, this, one_mul]
  · simp only [baseK, hs, hf, this]

/-- An object whose function for "A" is that of a forced estimate. -/
example : kMultOf { demoObj false with kByXn := fun _ => some fun _ => 1 } "A" 0.15 * 7 = 7 :=
  (c199_search (i := exCap 10) (lsq := fun _ => (0, 0)) (day := 4) (c := "A") (f := fun _ => 1) rfl
    (fun y => by
      rcases lt_or_ge y 0.15 with h | h
      · exact .inr ((c199_one _ _ _ y).2 (.inl h))
      · rcases lt_or_ge 1 y with h' | h'
        · exact .inr ((c199_one _ _ _ y).2 (.inr h'))
        · exact .inl ((c199_one _ _ _ y).1 h h'))
    (c123_grid.2 ⟨0, by norm_num, by norm_num⟩)
    ⟨{ demoObj false with kByXn := fun _ => some fun _ => 1 }, fun _ _ => none, 0, 0, 0, [], []⟩ rfl).1 7

theorem c199_false : ¬ C199 := by
  intro h
  have hx : (0.15 : ℝ) ∈ xnGrid := c123_grid.2 ⟨0, by norm_num, by norm_num⟩
  have hpos : 0 < (capForce (exCap 10) (fun _ => (0, 0)) 3000).aveC * (exCap 10).massMul := by
    have e : (capForce (exCap 10) (fun _ => (0, 0)) 3000).aveC = (exCap 10).aveC := by
      unfold capForce
      rw [if_neg (by norm_num), if_neg (by norm_num)]
    rw [e]
    norm_num [exCap, CapIn.aveC, CapIn.infl, meanOf]
  have h1 := (c199_partial hx).1 (h (exCap 10) (fun _ => (0, 0)) 3000 0.15 (exCap_data (by norm_num)) hx hpos)
  rw [(c198_none (by norm_num)).2.1] at h1
  exact (Real.rpow_pos_of_pos hpos 0.15).ne h1

/-! ### C200 -/

/-- C200, full statement: a table given by the caller is the one the object uses, and is left as it is. -/
def C200 : Prop := ∀ (force : Bool) (inp : String → CapIn) (lsq : List (ℝ × ℝ) → ℝ × ℝ) (rows : List BrkRow)
  (carbon : String) (comps : List String) (t t' : KTab), givenTable force inp lsq rows carbon comps t = .ok t' → t' = t

theorem givenStep_ok (h : givenStep inp lsq rows carbon t c = .ok t') :
    (¬ impacted rows carbon c → t' = t) ∧ (impacted rows carbon c → ∃ d, brkDay rows carbon c = .ok d ∧
      t' = Function.update t c (kColOf (inp c) (capForce (inp c) lsq d))) := by
  unfold givenStep at h
  constructor
  · intro hi
    rw [if_neg hi, Except.ok.injEq] at h
    exact h.symm
  · intro hi
    rw [if_pos hi] at h
    unfold forceCol at h
    rcases hd : brkDay rows carbon c with e | d
    · rw [hd] at h; cases h
    · rw [hd] at h
      refine ⟨d, rfl, ?_⟩
      have : Except.ok (Function.update t c (kColOf (inp c) (capForce (inp c) lsq d))) = (Except.ok t' : Except PyErr KTab) := h
      rw [Except.ok.injEq] at this
      exact this.symm

theorem givenFold_ok : ∀ {comps : List String} {t t' : KTab},
    comps.foldlM (givenStep inp lsq rows carbon) t = .ok t' →
    (∀ c, (c ∉ comps ∨ ¬ impacted rows carbon c) → t' c = t c) ∧
    (∀ c ∈ comps, impacted rows carbon c → ∃ d, brkDay rows carbon c = .ok d ∧ t' c = kColOf (inp c) (capForce (inp c) lsq d))
  | [], t, t', h => by
    have : (Except.ok t : Except PyErr KTab) = .ok t' := h
    rw [Except.ok.injEq] at this
    subst this
    exact ⟨fun _ _ => rfl, fun c hc => by simp at hc⟩
  | a :: l, t, t', h => by
    rw [List.foldlM_cons] at h
    rcases h1 : givenStep inp lsq rows carbon t a with e | t1
    · rw [h1] at h; cases h
    · rw [h1] at h
      obtain ⟨f1, f2⟩ := givenFold_ok (comps := l) (t := t1) (t' := t') h
      obtain ⟨g1, g2⟩ := givenStep_ok h1
      refine ⟨fun c hc => ?_, fun c hc hi => ?_⟩
      · have hl : c ∉ l ∨ ¬ impacted rows carbon c := hc.imp (fun h hh => h (List.mem_cons_of_mem _ hh)) id
        rw [f1 c hl]
        by_cases ha : impacted rows carbon a
        · obtain ⟨d, -, rfl⟩ := g2 ha
          refine Function.update_of_ne ?_ _ _
          rintro rfl
          rcases hc with hc | hc
          · exact hc List.mem_cons_self
          · exact hc ha
        · rw [g1 ha]
      · by_cases hl : c ∈ l
        · exact f2 c hl hi
        · rcases List.mem_cons.1 hc with rfl | h'
          · obtain ⟨d, hd, rfl⟩ := g2 hi
            exact ⟨d, hd, by rw [f1 c (.inl hl), Function.update_self]⟩
          · exact absurd h' hl

/-- C200 without forced days, and for the compounds without a day or with 3000. Missing: the others. -/
theorem c200_partial {force : Bool} (h : givenTable force inp lsq rows carbon comps t = .ok t') :
    (force = false → t' = t) ∧
    ∀ c, (∀ r ∈ rows, r.carbon = carbon → r.compound = c → r.day = 3000) → t' c = t c := by
  unfold givenTable at h
  cases force
  · simp only [Bool.false_eq_true, if_false, Except.ok.injEq] at h
    exact ⟨fun _ => h.symm, fun _ _ => by rw [h]⟩
  · simp only [if_true] at h
    refine ⟨fun h => absurd h (by decide), fun c hc => ?_⟩
    refine (givenFold_ok h).1 c (.inr ?_)
    rintro ⟨r, hr, h1, h2, h3⟩
    exact h2 (hc r hr h1 h3)

/-- C200. A compound with a forced day has the estimate for the first of its rows instead. -/
theorem c200_replaced (h : givenTable true inp lsq rows carbon comps t = .ok t') (hc : c ∈ comps) {r : BrkRow}
    (hr : r ∈ rows) (h1 : r.carbon = carbon) (h2 : r.compound = c) (h3 : r.day ≠ 3000) :
    ∃ l m s, rows = l ++ s :: m ∧ s.carbon = carbon ∧ s.compound = c ∧
      (∀ u ∈ l, ¬ (u.carbon = carbon ∧ u.compound = c)) ∧ t' c = kColOf (inp c) (capForce (inp c) lsq s.day) := by
  unfold givenTable at h
  simp only [if_true] at h
  obtain ⟨d, hd, he⟩ := (givenFold_ok h).2 c hc ⟨r, hr, h1, h3, h2⟩
  unfold brkDay at hd
  rcases hf : rows.find? (fun r => decide (r.carbon = carbon ∧ r.compound = c)) with _ | s
  · rw [hf] at hd; cases hd
  · rw [hf] at hd
    simp only [Except.ok.injEq] at hd
    obtain ⟨hp, l, m, hl, hm⟩ := List.find?_eq_some_iff_append.1 hf
    simp only [decide_eq_true_eq] at hp
    refine ⟨l, m, s, hl, hp.1, hp.2, fun u hu => ?_, by rw [he, hd]⟩
    have := hm u hu
    simp only [Bool.not_eq_true', decide_eq_false_iff_not] at this
    exact this

/-- C200. Of two rows, 3000 and then another, the first decides: the capacity is zero. -/
theorem c200_twice {d : ℝ} (hd : d ≠ 3000) : ∃ t', givenTable true inp lsq [⟨carbon, c, 3000⟩, ⟨carbon, c, d⟩] carbon [c] t = .ok t' ∧
    (t' c).K = 0 ∧ (t' c).q = 0 := by
  have hi : impacted [⟨carbon, c, 3000⟩, ⟨carbon, c, d⟩] carbon c := ⟨⟨carbon, c, d⟩, by simp, rfl, hd, rfl⟩
  have hb : brkDay [⟨carbon, c, 3000⟩, ⟨carbon, c, d⟩] carbon c = .ok 3000 := by simp [brkDay]
  have hs : givenStep inp lsq [⟨carbon, c, 3000⟩, ⟨carbon, c, d⟩] carbon t c =
      .ok (Function.update t c (kColOf (inp c) (capForce (inp c) lsq 3000))) := by
    unfold givenStep
    rw [if_pos hi]
    unfold forceCol
    rw [hb]
    rfl
  refine ⟨Function.update t c (kColOf (inp c) (capForce (inp c) lsq 3000)), ?_, ?_, ?_⟩
  · unfold givenTable
    simp only [if_true, List.foldlM_cons, List.foldlM_nil]
    rw [hs]
    rfl
  · rw [Function.update_self]
    exact (c198_none (by norm_num)).1
  · rw [Function.update_self]
    exact (c198_none (by norm_num)).2.1

example : ∃ t', givenTable true (fun _ => exCap 10) (fun _ => (0, 0)) [⟨"F", "A", 4⟩] "F" ["A"]
    (fun _ => ⟨5, 1, 1, 1, 1⟩) = .ok t' ∧ (t' "A").brk = 4 := by
  have hi : impacted [⟨"F", "A", 4⟩] "F" "A" := ⟨⟨"F", "A", 4⟩, by simp, rfl, by norm_num, rfl⟩
  obtain ⟨t', ht⟩ : ∃ t', givenTable true (fun _ => exCap 10) (fun _ => (0, 0)) [⟨"F", "A", 4⟩] "F" ["A"]
      (fun _ => ⟨5, 1, 1, 1, 1⟩) = .ok t' := by
    unfold givenTable
    simp only [if_true, List.foldlM_cons, List.foldlM_nil]
    unfold givenStep
    rw [if_pos hi]
    exact ⟨_, rfl⟩
  obtain ⟨l, m, s, h1, -, -, -, h2⟩ := c200_replaced (c := "A") ht (by simp) (r := ⟨"F", "A", 4⟩) (by simp) rfl rfl (by norm_num)
  have hs : s = ⟨"F", "A", 4⟩ := by
    have : s ∈ ([⟨"F", "A", 4⟩] : List BrkRow) := by rw [h1]; simp
    simpa using this
  refine ⟨t', ht, ?_⟩
  rw [h2, hs]
  exact (c198_partial (by norm_num [exCap]) (by norm_num) (by norm_num) (by norm_num)).1.time

theorem c200_false : ¬ C200 := by
  intro h
  obtain ⟨t', h1, h2, -⟩ := c200_twice (inp := fun _ => exCap 10) (lsq := fun _ => (0, 0)) (carbon := "F") (c := "A")
    (t := fun _ => ⟨5, 1, 1, 1, 1⟩) (d := 100) (by norm_num)
  rw [h _ _ _ _ _ _ _ _ h1] at h2
  norm_num at h2

end
end WTM
