import Mathlib.Tactic
import Mathlib.Data.List.TakeWhile
import Verif.Model.ShinyGac
import Verif.Props.GacInfluent
import Verif.Props.GacUncert
import Verif.Props.Tools
import Verif.Props.Fouling

/-! C149-C153: the functions called by the carbon web application, and the keywords of the model class. -/
set_option autoImplicit false
namespace WTM

/-! ### Grids -/

theorem mem_arange0 {stop step : ℝ} (hs : 0 < step) (t : ℝ) :
    t ∈ arange0 stop step ↔ (∃ k : ℕ, t = k * step) ∧ t < stop := by
  unfold arange0
  rw [List.mem_map]
  constructor
  · rintro ⟨k, hk, rfl⟩
    refine ⟨⟨k, rfl⟩, ?_⟩
    have := Nat.lt_ceil.1 (List.mem_range.1 hk)
    rwa [lt_div_iff₀ hs] at this
  · rintro ⟨⟨k, rfl⟩, h⟩
    exact ⟨k, List.mem_range.2 (Nat.lt_ceil.2 (by rwa [lt_div_iff₀ hs])), rfl⟩

/-- Two consecutive entries of a mapped range. -/
theorem shSegment_range {α : Type} (f : ℕ → ℝ × α) {n k : ℕ} (h : k + 1 < n) :
    Spec.Segment ((List.range n).map f) (f k) (f (k + 1)) := by
  refine ⟨((List.range n).map f).take k, ((List.range n).map f).drop (k + 2), ?_⟩
  have h1 : k < ((List.range n).map f).length := by simp; omega
  have h2 : k + 1 < ((List.range n).map f).length := by simp; omega
  conv_lhs => rw [← List.take_append_drop k ((List.range n).map f), List.drop_eq_getElem_cons h1, List.drop_eq_getElem_cons h2]
  simp

theorem shIncreasing_range {α : Type} (f : ℕ → ℝ × α) (n : ℕ) (h : ∀ i j, i < j → (f i).1 < (f j).1) :
    Spec.Increasing ((List.range n).map f) := by
  unfold Spec.Increasing
  rw [List.pairwise_map]
  exact List.pairwise_lt_range.imp fun {i j} hij => h i j hij

theorem shMax_last {tab : List (ℝ × ℝ)} (hinc : Spec.Increasing tab) (hne : tab ≠ []) :
    shMax tab = (tab.getLast hne).1 := by
  unfold shMax
  have key : ∀ (l : List (ℝ × ℝ)) (a : ℝ), Spec.Increasing l → (∀ r ∈ l, a ≤ r.1) → ∀ h : l ≠ [],
      (l.map (·.1)).foldl max a = (l.getLast h).1 := by
    intro l
    induction l with
    | nil => intro a _ _ h; exact absurd rfl h
    | cons c l ih =>
      intro a hi ha h
      rw [List.map_cons, List.foldl_cons, max_eq_right (ha c List.mem_cons_self)]
      obtain ⟨h1, h2⟩ := List.pairwise_cons.1 hi
      cases l with
      | nil => rfl
      | cons d l =>
        rw [List.getLast_cons (by simp)]
        exact ih c.1 h2 (fun r hr => (h1 r hr).le) (by simp)
  refine key tab _ hinc ?_ hne
  intro r hr
  cases tab with
  | nil => cases hr
  | cons c l =>
    rcases List.mem_cons.1 hr with rfl | hr
    · exact le_rfl
    · exact ((List.pairwise_cons.1 hinc).1 r hr).le

/-- The daily grid: whole times up to the last influent time rounded up. -/
theorem shDaily_eq (tab : List (ℝ × ℝ)) (M : ℝ) :
    shDaily tab M = (List.range ⌈M + 1⌉₊).map fun k : ℕ => ((k : ℝ), npInterp tab k) := by
  unfold shDaily arange0
  simp [List.map_map, Function.comp_def]

theorem ceil_succ {M : ℝ} (hM : 0 ≤ M) : ⌈M + 1⌉₊ = ⌈M⌉₊ + 1 := by
  have := Nat.ceil_add_natCast hM 1
  simpa using this

/-- `c93_partial` for a list of at least two rows. -/
theorem influent_any {L : List (ℝ × ℝ)} {tMult tconv m T : ℝ} (hL : ∃ a b rest, L = a :: b :: rest)
    (hT : ∀ h : L ≠ [], (L.getLast h).1 = T) (hinc : Spec.Increasing L) (hint : ∀ x ∈ L, ∃ k : ℕ, x.1 = k) (hm : 1 ≤ tMult)
    (hc : 0 < tconv) (h1 : m ≤ T) {c d : ℝ × ℝ} (hs : Spec.Segment L c d) (hcm : c.1 ≤ m) (hmd : m ≤ d.1) :
    gacInfluent L T tMult tconv (m * tconv) = .ok (c.2 + (d.2 - c.2) / (d.1 - c.1) * (m - c.1)) := by
  obtain ⟨a, b, rest, rfl⟩ := hL
  obtain rfl := hT (by simp)
  exact c93_partial hinc hint hm hc h1 hs hcm hmd

/-! ### C149: the influent -/

/-- The table read as a curve: straight lines between its rows, the first value before it. -/
def Spec.Follows (tab : List (ℝ × ℝ)) (x v : ℝ) : Prop :=
  (∀ c d, Spec.Segment tab c d → c.1 ≤ x → x ≤ d.1 → v = c.2 + (d.2 - c.2) / (d.1 - c.1) * (x - c.1)) ∧
  ∀ c l, tab = c :: l → x ≤ c.1 → v = c.2

/-- The claim in full: at every time of the table the equations use the influent entered. -/
def C149 : Prop := ∀ (tab : List (ℝ × ℝ)) (m : ℕ) (tconv x : ℝ), Spec.Increasing tab → (∀ r ∈ tab, 0 ≤ r.1) →
  m ∈ [1440, 60] → 0 < tconv → 0 ≤ x → ∀ h : tab ≠ [], 0 < (tab.getLast h).1 → x ≤ (tab.getLast h).1 →
  ∃ v, shInfluent tab m tconv (x * m * tconv) = .ok v ∧ Spec.Follows tab x v

/-- C149, what happens for any table: between whole times the influent is the straight line between the values the table has
there. -/
theorem c149_daily {tab : List (ℝ × ℝ)} {m k : ℕ} {tconv x : ℝ} (hinc : Spec.Increasing tab) (hm : 1 ≤ m) (hc : 0 < tconv)
    (hne : tab ≠ []) (h1 : (k : ℝ) ≤ x) (h2 : x ≤ k + 1) (h3 : (k : ℝ) < (tab.getLast hne).1) :
    shInfluent tab m tconv (x * m * tconv) = .ok (npInterp tab k + (npInterp tab (k + 1) - npInterp tab k) * (x - k)) := by
  have hM := shMax_last hinc hne
  have hM0 : 0 < (tab.getLast hne).1 := lt_of_le_of_lt (Nat.cast_nonneg k) h3
  have hmr : (1 : ℝ) ≤ m := by exact_mod_cast hm
  have hm0 : (0 : ℝ) < m := by linarith
  set f : ℕ → ℝ × ℝ := fun k => ((k : ℝ) * m, npInterp tab k) with hf
  have hraw : (shDaily tab (shMax tab)).map (fun r => (r.1 * (m : ℝ), r.2)) =
      (List.range (⌈(tab.getLast hne).1⌉₊ + 1)).map f := by
    rw [hM, shDaily_eq, ceil_succ hM0.le, List.map_map]; rfl
  obtain ⟨N, hN⟩ : ∃ N, ⌈(tab.getLast hne).1⌉₊ = N + 1 := ⟨_, (Nat.succ_pred_eq_of_pos (Nat.ceil_pos.2 hM0)).symm⟩
  have hkN : k < N + 1 := hN ▸ Nat.lt_ceil.2 h3
  have hinc' : Spec.Increasing ((List.range (N + 1 + 1)).map f) := by
    refine shIncreasing_range f _ fun i j hij => ?_
    have : (i : ℝ) < j := by exact_mod_cast hij
    exact mul_lt_mul_of_pos_right this hm0
  have hseg : Spec.Segment ((List.range (N + 1 + 1)).map f) (f k) (f (k + 1)) := shSegment_range f (by omega)
  have hshape : (List.range (N + 1 + 1)).map f = f 0 :: f 1 :: ((List.range N).map fun i => f (i + 2)) := by
    rw [List.range_succ_eq_map, List.range_succ_eq_map]
    simp [List.map_map, Function.comp_def]
  have hint : ∀ r ∈ (List.range (N + 1 + 1)).map f, ∃ j : ℕ, r.1 = j := by
    intro r hr
    obtain ⟨i, -, rfl⟩ := List.mem_map.1 hr
    exact ⟨i * m, by simp [hf]⟩
  have hlast : ∀ h : (List.range (N + 1 + 1)).map f ≠ [],
      (((List.range (N + 1 + 1)).map f).getLast h).1 = ((N + 1 : ℕ) : ℝ) * m := by
    intro h
    rw [List.getLast_map]
    simp [hf]
  have hgl : ((((List.range (N + 1 + 1)).map f).map (·.1)).getLastD 0) = ((N + 1 : ℕ) : ℝ) * m := by
    rw [List.range_succ]
    simp [hf]
  unfold shInfluent
  simp only [hraw, hN, hgl]
  have hx : x * m ≤ ((N + 1 : ℕ) : ℝ) * m := by
    have : ((k + 1 : ℕ) : ℝ) ≤ ((N + 1 : ℕ) : ℝ) := by exact_mod_cast hkN
    have h4 : x ≤ ((N + 1 : ℕ) : ℝ) := le_trans (by push_cast; exact h2) this
    exact mul_le_mul_of_nonneg_right h4 hm0.le
  rw [influent_any ⟨_, _, _, hshape⟩ hlast hinc' hint hmr hc hx hseg (by simp only [hf]; gcongr)
    (by simp only [hf]; push_cast; gcongr)]
  simp only [hf]
  push_cast
  congr 1
  have : ((k : ℝ) + 1) * m - k * m ≠ 0 := by ring_nf; exact hm0.ne'
  field_simp
  ring

/-- Past its second row a table can do without the first. -/
theorem npInterp_tail {a b : ℝ × ℝ} {rest : List (ℝ × ℝ)} {t : ℝ} (hab : a.1 < b.1) (h : b.1 ≤ t) :
    npInterp (a :: b :: rest) t = npInterp (b :: rest) t := by
  rw [npInterp, if_neg (by linarith)]
  by_cases h2 : t ≤ b.1
  · rw [if_pos h2]
    have e : t = b.1 := le_antisymm h2 h
    have e2 : npInterp (b :: rest) t = b.2 := by
      cases rest with
      | nil => rfl
      | cons c rest => rw [npInterp, if_pos h2]
    rw [e2, e, div_mul_cancel₀ _ (by linarith)]
    ring
  · rw [if_neg h2]

/-- In a table with whole times the curve has no corner between whole times. -/
theorem npInterp_whole {k : ℕ} {x : ℝ} (h1 : (k : ℝ) ≤ x) (h2 : x ≤ k + 1) : ∀ {tab : List (ℝ × ℝ)}, Spec.Increasing tab →
    (∀ r ∈ tab, ∃ j : ℕ, r.1 = j) → npInterp tab x = npInterp tab k + (npInterp tab (k + 1) - npInterp tab k) * (x - k)
  | [], _, _ => by simp [npInterp]
  | [r], _, _ => by simp [npInterp]
  | a :: b :: rest, hinc, hw => by
    obtain ⟨i, hi⟩ := hw a (by simp)
    obtain ⟨j, hj⟩ := hw b (by simp)
    have hab : a.1 < b.1 := (List.pairwise_cons.1 hinc).1 b (by simp)
    by_cases c1 : k + 1 ≤ i
    · have : ((k : ℝ) + 1) ≤ a.1 := by rw [hi]; exact_mod_cast c1
      rw [npInterp, if_pos (by linarith), npInterp, if_pos (by linarith), npInterp, if_pos this]
      ring
    · have c1' : a.1 ≤ k := by rw [hi]; exact_mod_cast (by omega : i ≤ k)
      by_cases c2 : k + 1 ≤ j
      · have c2' : (k : ℝ) + 1 ≤ b.1 := by rw [hj]; exact_mod_cast c2
        have hs : Spec.Segment (a :: b :: rest) a b := ⟨[], rest, rfl⟩
        rw [npInterp_segment hinc hs (by linarith) (by linarith), npInterp_segment hinc hs c1' (by linarith),
          npInterp_segment hinc hs (by linarith) c2']
        ring
      · have c2' : b.1 ≤ k := by rw [hj]; exact_mod_cast (by omega : j ≤ k)
        rw [npInterp_tail hab (by linarith), npInterp_tail hab (by linarith), npInterp_tail hab (by linarith)]
        exact npInterp_whole h1 h2 (List.pairwise_cons.1 hinc).2 fun r hr => hw r (List.mem_cons_of_mem _ hr)

theorem npInterp_follows {tab : List (ℝ × ℝ)} (hinc : Spec.Increasing tab) (x : ℝ) : Spec.Follows tab x (npInterp tab x) := by
  refine ⟨fun c d hs h1 h2 => npInterp_segment hinc hs h1 h2, ?_⟩
  rintro c l rfl h
  cases l with
  | nil => rfl
  | cons d l => rw [npInterp, if_pos h]

/-- C149, when the times of the table are whole (days or hours). Missing: samples between, which are lost. -/
theorem c149_partial {tab : List (ℝ × ℝ)} {m : ℕ} {tconv x : ℝ} (hinc : Spec.Increasing tab)
    (hw : ∀ r ∈ tab, ∃ j : ℕ, r.1 = j) (hm : 1 ≤ m) (hc : 0 < tconv) (hx : 0 ≤ x) (hne : tab ≠ [])
    (hM : 0 < (tab.getLast hne).1) (hxM : x ≤ (tab.getLast hne).1) :
    ∃ v, shInfluent tab m tconv (x * m * tconv) = .ok v ∧ Spec.Follows tab x v := by
  obtain ⟨k, h1, h2, h3⟩ : ∃ k : ℕ, (k : ℝ) ≤ x ∧ x ≤ k + 1 ∧ (k : ℝ) < (tab.getLast hne).1 := by
    rcases lt_or_eq_of_le hxM with h | h
    · exact ⟨⌊x⌋₊, Nat.floor_le hx, (Nat.lt_floor_add_one x).le, lt_of_le_of_lt (Nat.floor_le hx) h⟩
    · obtain ⟨j, hj⟩ := hw _ (List.getLast_mem hne)
      rw [hj] at hM h ⊢
      have hj0 : 0 < j := by exact_mod_cast hM
      obtain ⟨i, rfl⟩ : ∃ i, j = i + 1 := ⟨j - 1, by omega⟩
      refine ⟨i, ?_, ?_, ?_⟩
      · rw [h]; push_cast; linarith
      · rw [h]; push_cast; linarith
      · push_cast; linarith
  refine ⟨_, c149_daily hinc hm hc hne h1 h2 h3, ?_⟩
  rw [← npInterp_whole h1 h2 hinc hw]
  exact npInterp_follows hinc x

/-- C149, any table: at whole times the influent is the one entered, between them it does not leave the values at the two
whole times around. -/
theorem c149_whole {tab : List (ℝ × ℝ)} {m k : ℕ} {tconv x : ℝ} (hinc : Spec.Increasing tab) (hm : 1 ≤ m) (hc : 0 < tconv)
    (hne : tab ≠ []) (h1 : (k : ℝ) ≤ x) (h2 : x ≤ k + 1) (h3 : (k : ℝ) < (tab.getLast hne).1) :
    ∃ a b v, Spec.Follows tab k a ∧ Spec.Follows tab (k + 1) b ∧ shInfluent tab m tconv (x * m * tconv) = .ok v ∧
      min a b ≤ v ∧ v ≤ max a b ∧ (x = k → v = a) ∧ (x = k + 1 → v = b) := by
  refine ⟨_, _, _, npInterp_follows hinc _, npInterp_follows hinc _, c149_daily hinc hm hc hne h1 h2 h3, ?_, ?_, ?_, ?_⟩
  · have := (c93_between (a := npInterp tab k) (b := npInterp tab (k + 1)) (d := x - k) (by linarith) (by linarith)).1
    unfold lerp at this; linarith
  · have := (c93_between (a := npInterp tab k) (b := npInterp tab (k + 1)) (d := x - k) (by linarith) (by linarith)).2
    unfold lerp at this; linarith
  · rintro rfl; ring
  · rintro rfl; ring

/-- A peak at noon of the first day. -/
noncomputable def peakTab : List (ℝ × ℝ) := [(0, 0), (1 / 2, 1), (1, 0)]

theorem peak_inc : Spec.Increasing peakTab := by unfold Spec.Increasing peakTab; norm_num

theorem c149_false : ¬ C149 := by
  intro H
  obtain ⟨v, hv, hf⟩ := H peakTab 1440 1 (1 / 2) peak_inc (by unfold peakTab; norm_num) (by simp) one_pos (by norm_num)
    (by simp [peakTab]) (by simp [peakTab]) (by norm_num [peakTab])
  have h := c149_daily (k := 0) (m := 1440) (tconv := 1) (x := 1 / 2) peak_inc (by norm_num) one_pos (by simp [peakTab])
    (by norm_num) (by norm_num) (by norm_num [peakTab])
  rw [h] at hv
  have h0 : npInterp peakTab ((0 : ℕ) : ℝ) = 0 := by
    rw [peakTab, npInterp, if_pos (by norm_num)]
  have h1 : npInterp peakTab (((0 : ℕ) : ℝ) + 1) = 0 := by
    have := npInterp_last (r := ((1 : ℝ), (0 : ℝ))) (l := [(0, 0), (1 / 2, 1)]) (t := ((0 : ℕ) : ℝ) + 1) peak_inc (by norm_num)
    exact this
  rw [h0, h1] at hv
  have hv' : v = 0 := by
    have := Except.ok.inj hv
    rw [← this]; ring
  have := hf.1 (0, 0) (1 / 2, 1) ⟨[], [(1, 0)], rfl⟩ (by norm_num) (by norm_num)
  rw [hv'] at this
  norm_num at this

/-- Hypotheses of `c149_partial`: weekly samples. -/
example : Spec.Increasing [((0 : ℝ), (3 : ℝ)), (7, 5), (14, 4)] ∧ (∀ r ∈ [((0 : ℝ), (3 : ℝ)), (7, 5), (14, 4)], ∃ j : ℕ, r.1 = j) := by
  constructor
  · unfold Spec.Increasing; norm_num
  · intro r hr
    simp only [List.mem_cons, List.not_mem_nil, or_false] at hr
    rcases hr with rfl | rfl | rfl
    · exact ⟨0, by norm_num⟩
    · exact ⟨7, by norm_num⟩
    · exact ⟨14, by norm_num⟩

/-! ### C150: the output table -/

/-- The largest time of the daily grid: the last influent time rounded up. -/
theorem arange_last {M : ℝ} (hM : 0 ≤ M) : (arange0 (M + 1) 1).getLastD 0 = ⌈M⌉₊ := by
  unfold arange0
  rw [div_one, ceil_succ hM, List.range_succ]
  simp

/-- C150: rows at all quarters of a time unit from zero, the last within a fifth above and a twentieth below the last
influent time; every value is on the straight line between two simulated values at most `D / 1999` apart, `D` being
the last influent time rounded up, and none is extrapolated. -/
theorem c150_output (curve : ℝ → ℝ) {M : ℝ} (hM : 0 < M) :
    (∀ t : ℝ, t ∈ (shOutput curve M).map (·.1) ↔ (∃ k : ℕ, t = k / 4) ∧ t < M + 1 / 5) ∧
    (∃ t ∈ (shOutput curve M).map (·.1), M - 1 / 20 ≤ t) ∧
    ∀ r ∈ shOutput curve M, ∃ a b, 0 ≤ a ∧ a ≤ r.1 ∧ r.1 ≤ b ∧ b ≤ ⌈M⌉₊ ∧ b - a = ⌈M⌉₊ / 1999 ∧
      r.2 = curve a + (curve b - curve a) / (b - a) * (r.1 - a) := by
  have hmem : ∀ t : ℝ, t ∈ (shOutput curve M).map (·.1) ↔ (∃ k : ℕ, t = k / 4) ∧ t < M + 1 / 5 := by
    intro t
    have e : (shOutput curve M).map (·.1) = arange0 (M + 0.2) 0.25 := by
      unfold shOutput; simp [List.map_map, Function.comp_def]
    rw [e, mem_arange0 (by norm_num)]
    refine and_congr (exists_congr fun k => ?_) ?_
    · rw [show (k : ℝ) * 0.25 = k / 4 by ring]
    · rw [show (0.2 : ℝ) = 1 / 5 by norm_num]
  refine ⟨hmem, ?_, ?_⟩
  · refine ⟨(⌈4 * (M - 1 / 20)⌉₊ : ℝ) / 4, (hmem _).2 ⟨⟨_, rfl⟩, ?_⟩, ?_⟩
    · rcases le_or_gt 0 (4 * (M - 1 / 20)) with h | h
      · have := Nat.ceil_lt_add_one h
        linarith
      · rw [Nat.ceil_eq_zero.2 h.le]; norm_num; linarith
    · have := Nat.le_ceil (4 * (M - 1 / 20))
      linarith
  · intro r hr
    obtain ⟨t, ht, rfl⟩ := List.mem_map.1 hr
    rw [mem_arange0 (by norm_num)] at ht
    obtain ⟨⟨k, hk⟩, hlt⟩ := ht
    rw [arange_last hM.le]
    have hD1 : 1 ≤ ⌈M⌉₊ := Nat.one_le_ceil_iff.2 hM
    have hD : (0 : ℝ) < (⌈M⌉₊ : ℝ) := by exact_mod_cast hD1
    have hle : t ≤ (⌈M⌉₊ : ℝ) := by
      by_contra hcon
      push Not at hcon
      have h4 : 4 * ⌈M⌉₊ + 1 ≤ k := by
        have : (4 * ⌈M⌉₊ : ℝ) < k := by rw [hk] at hcon; linarith
        exact_mod_cast this
      have h5 : (4 * (⌈M⌉₊ : ℝ) + 1) ≤ k := by exact_mod_cast h4
      have := Nat.le_ceil M
      rw [hk] at hlt
      linarith
    have ht0 : 0 ≤ t := by rw [hk]; positivity
    set D : ℝ := (⌈M⌉₊ : ℝ) with hDdef
    let f : ℕ → ℝ × ℝ := fun k => (D * k / ((1998 : ℕ) + 1), curve (D * k / ((1998 : ℕ) + 1)))
    have hres : shResults curve D = (List.range 2000).map f := by
      unfold shResults linspace0
      rw [List.map_map]; rfl
    have hinc : Spec.Increasing (shResults curve D) := by
      rw [hres]
      refine shIncreasing_range f _ fun i j hij => ?_
      have : (i : ℝ) < j := by exact_mod_cast hij
      show D * i / ((1998 : ℕ) + 1) < D * j / ((1998 : ℕ) + 1)
      gcongr
    obtain ⟨i, hi, h1, h2⟩ : ∃ i : ℕ, i + 1 < 2000 ∧ D * i / 1999 ≤ t ∧ t ≤ D * (i + 1) / 1999 := by
      rcases lt_or_eq_of_le hle with h | h
      · refine ⟨⌊t * 1999 / D⌋₊, ?_, ?_, ?_⟩
        · have : ⌊t * 1999 / D⌋₊ < 1999 := by
            rw [Nat.floor_lt (by positivity), div_lt_iff₀ hD]
            push_cast; linarith
          omega
        · have := Nat.floor_le (show 0 ≤ t * 1999 / D by positivity)
          rw [le_div_iff₀ hD] at this
          rw [div_le_iff₀ (by norm_num)]; linarith
        · have := (Nat.lt_floor_add_one (t * 1999 / D)).le
          rw [div_le_iff₀ hD] at this
          rw [le_div_iff₀ (by norm_num)]; linarith
      · exact ⟨1998, by norm_num, by rw [h]; push_cast; linarith, by rw [h]; push_cast; linarith⟩
    have hseg : Spec.Segment (shResults curve D) (f i) (f (i + 1)) := by rw [hres]; exact shSegment_range f hi
    have e1 : (f i).1 = D * i / 1999 := by show D * i / ((1998 : ℕ) + 1) = _; norm_num
    have e2 : (f (i + 1)).1 = D * (i + 1) / 1999 := by
      show D * ((i + 1 : ℕ) : ℝ) / ((1998 : ℕ) + 1) = _; push_cast; norm_num
    refine ⟨(f i).1, (f (i + 1)).1, by rw [e1]; positivity, by rw [e1]; exact h1, by rw [e2]; exact h2, ?_, ?_, ?_⟩
    · rw [e2, div_le_iff₀ (by norm_num)]
      have : ((i : ℝ) + 1) ≤ 1999 := by exact_mod_cast (by omega : i + 1 ≤ 1999)
      nlinarith
    · rw [e1, e2]; ring
    · have h := npInterp_segment (t := t) hinc hseg (by rw [e1]; exact h1) (by rw [e2]; exact h2)
      have c1 : (f i).2 = curve (f i).1 := rfl
      have c2 : (f (i + 1)).2 = curve (f (i + 1)).1 := rfl
      rw [c1, c2] at h
      simp only
      exact h

/-- C150: the curve of a compound is the simulation of that compound alone with the values of the form; the first exception
is returned. -/
theorem c150_run {S : Sim} {mm : ℝ} {o : GacObj} {M : ℝ} {res : String → List (ℝ × ℝ)} (h : shRun S mm o M = .ok res)
    {c : String} (hc : c ∈ o.core.compounds) :
    ∃ R, (S (Spec.alone o.core c) o.der).1 = .ok R ∧ res c = shOutput (R c) M := by
  unfold shRun at h
  rcases hu : modelUncertainty S mm true true (uTests none none none none none none none none none) o with ⟨e | out, o'⟩
  · rw [hu] at h; cases h
  · rw [hu] at h
    obtain rfl := Except.ok.inj h
    obtain ⟨⟨R, hR, e⟩, -⟩ := c38_gac hu hc
    exact ⟨R, hR, congrArg (fun x => shOutput x M) e⟩

/-- C150: a run in which no simulation fails returns a table. -/
theorem c150_returns {S : Sim} (hS : ∀ a d, ∃ r, (S a d).1 = .ok r) (mm : ℝ) (o : GacObj) (M : ℝ) :
    ∃ res, shRun S mm o M = .ok res := by
  obtain ⟨out, o', h⟩ := c52_returns hS mm true true (uTests none none none none none none none none none) o
  exact ⟨_, by unfold shRun; rw [h]; rfl⟩

/-! ### C151: transfer coefficients -/

/-- Entry of a table by name. -/
def MtTab.entry (t : MtTab) (row c : String) : ℝ :=
  if row = "kf" then (t c).kf else if row = "dp" then (t c).dp else (t c).ds

def mtRows : List String := ["kf", "dp", "ds"]

theorem entry_put (t : MtTab) {row row' : String} (h : row ∈ mtRows) (h' : row' ∈ mtRows) (c c' : String) (x : ℝ) :
    (t.put row c x).entry row' c' = if row' = row ∧ c' = c then x else t.entry row' c' := by
  by_cases hc : c' = c
  · subst hc
    simp only [mtRows, List.mem_cons, List.not_mem_nil, or_false] at h h'
    rcases h with rfl | rfl | rfl <;> rcases h' with rfl | rfl | rfl <;> simp [MtTab.put, MtTab.entry]
  · rw [if_neg (fun h => hc h.2)]
    simp only [MtTab.put, MtTab.entry, if_neg hc]

/-- One row: entries before the first text are written. -/
theorem mtRow_entry {row row' : String} (h : row ∈ mtRows) (h' : row' ∈ mtRows) (cell : String → PropCell) (c : String) :
    ∀ (l : List String) (t : MtTab), l.Nodup →
    (shMtRow row cell l t).entry row' c =
      if row' = row then
        match (l.takeWhile fun d => match cell d with | .num _ => true | .text => false).contains c, cell c with
        | true, .num x => x
        | _, _ => t.entry row' c
      else t.entry row' c
  | [], t, _ => by simp [shMtRow]
  | d :: l, t, hn => by
    obtain ⟨hd, hn'⟩ := List.nodup_cons.1 hn
    rcases hcell : cell d with x | _
    · rw [shMtRow, hcell]
      simp only
      rw [mtRow_entry h h' cell c l _ hn', entry_put t h h']
      rw [List.takeWhile_cons, hcell]
      simp only [if_true]
      by_cases hr : row' = row
      · simp only [if_pos hr]
        by_cases hc : c = d
        · subst hc
          have h0 : (l.takeWhile fun d => match cell d with | .num _ => true | .text => false).contains c = false := by
            rw [← Bool.not_eq_true, List.contains_iff_mem]
            exact fun hm => hd ((List.takeWhile_prefix _).sublist.mem hm)
          rw [h0, hcell]
          simp [hr]
        · have h0 : (d :: l.takeWhile fun d => match cell d with | .num _ => true | .text => false).contains c =
              (l.takeWhile fun d => match cell d with | .num _ => true | .text => false).contains c := by
            simp [hc]
          rw [h0, if_neg (fun h => hc h.2)]
      · simp only [if_neg hr]
        rw [if_neg (fun h => hr h.1)]
    · rw [shMtRow, hcell]
      simp only
      rw [List.takeWhile_cons, hcell]
      by_cases hr : row' = row <;> simp [hr]

/-- The part of a row before its first text. -/
def Spec.beforeText (cell : String → PropCell) (l : List String) : List String :=
  l.takeWhile fun d => match cell d with | .num _ => true | .text => false

theorem shMt_entry {compounds : List String} (hn : compounds.Nodup) {row c : String} (hr : row ∈ mtRows) :
    ∀ (sheet : List (Option String × (String → PropCell))), (sheet.filterMap fun r => r.1.map lowerStr).Nodup →
    (∀ n cell, (some n, cell) ∈ sheet → lowerStr n = row → (shMt compounds sheet).entry row c =
      match (Spec.beforeText cell compounds).contains c, cell c with
      | true, .num x => x
      | _, _ => 0) ∧
    ((∀ n cell, (some n, cell) ∈ sheet → lowerStr n ≠ row) → (shMt compounds sheet).entry row c = 0) := by
  intro sheet
  induction sheet using List.reverseRecOn with
  | nil =>
    refine fun _ => ⟨fun n cell h => by simp at h, fun _ => ?_⟩
    simp [MtTab.entry, shMt]
  | append_singleton sheet r ih =>
    intro hd
    rw [List.filterMap_append, List.nodup_append] at hd
    obtain ⟨hd1, -, hd2⟩ := hd
    obtain ⟨ih1, ih2⟩ := ih hd1
    obtain ⟨rn, rc⟩ := r
    have hstep : shMt compounds (sheet ++ [(rn, rc)]) = match (rn, rc).1 with
        | some n => if lowerStr n ∈ ["kf", "dp", "ds"] then shMtRow (lowerStr n) rc compounds (shMt compounds sheet)
          else shMt compounds sheet
        | none => shMt compounds sheet := by
      unfold shMt
      rw [List.foldl_append, List.foldl_cons, List.foldl_nil]
      rfl
    have hskip : (∀ n, rn = some n → lowerStr n ≠ row) →
        (shMt compounds (sheet ++ [(rn, rc)])).entry row c = (shMt compounds sheet).entry row c := by
      intro hne
      rw [hstep]
      rcases rn with _ | n
      · rfl
      · simp only
        by_cases hm : lowerStr n ∈ ["kf", "dp", "ds"]
        · rw [if_pos hm, mtRow_entry hm hr _ _ _ _ hn, if_neg]
          exact fun e => hne n rfl e.symm
        · rw [if_neg hm]
    refine ⟨fun n cell hmem hnr => ?_, fun hall => ?_⟩
    · rcases List.mem_append.1 hmem with hmem | hmem
      · rw [hskip]
        · exact ih1 n cell hmem hnr
        · intro n' e e'
          refine hd2 row (List.mem_filterMap.2 ⟨_, hmem, by simp [hnr]⟩) row ?_ rfl
          simp [e, e']
      · simp only [List.mem_singleton, Prod.mk.injEq] at hmem
        obtain ⟨rfl, rfl⟩ := hmem
        rw [hstep]
        simp only
        rw [if_pos (show lowerStr n ∈ ["kf", "dp", "ds"] from hnr ▸ hr), mtRow_entry (hnr ▸ hr) hr _ _ _ _ hn, if_pos hnr.symm]
        have h0 := ih2 (fun n' cell' h' e => hd2 row (List.mem_filterMap.2 ⟨_, h', by simp [e]⟩) row
          (by simp [hnr]) rfl)
        rw [h0]
        rfl
    · rw [hskip]
      · exact ih2 fun n cell h => hall n cell (List.mem_append_left _ h)
      · rintro n rfl
        exact hall n rc (by simp)

/-- The claim in full: every number in a row named kf, dp or ds, in whatever letter case, is the coefficient of that compound,
and without such a row it is zero, which asks for the correlation (C57). -/
def C151 : Prop := ∀ (compounds : List String) (sheet : List (Option String × (String → PropCell))) (row c : String),
  compounds.Nodup → (sheet.filterMap fun r => r.1.map lowerStr).Nodup → row ∈ mtRows → c ∈ compounds →
  (∀ n cell x, (some n, cell) ∈ sheet → lowerStr n = row → cell c = .num x → (shMt compounds sheet).entry row c = x) ∧
  ((∀ n cell, (some n, cell) ∈ sheet → lowerStr n ≠ row) → (shMt compounds sheet).entry row c = 0)

/-- C151, when the row holds only numbers. -/
theorem c151_partial (compounds : List String) (sheet : List (Option String × (String → PropCell))) (row c : String)
    (hn : compounds.Nodup) (hs : (sheet.filterMap fun r => r.1.map lowerStr).Nodup) (hr : row ∈ mtRows) (hc : c ∈ compounds) :
    (∀ n cell x, (some n, cell) ∈ sheet → lowerStr n = row → (∀ d ∈ compounds, ∃ y, cell d = .num y) → cell c = .num x →
      (shMt compounds sheet).entry row c = x) ∧
    ((∀ n cell, (some n, cell) ∈ sheet → lowerStr n ≠ row) → (shMt compounds sheet).entry row c = 0) := by
  obtain ⟨h1, h2⟩ := shMt_entry (c := c) hn hr sheet hs
  refine ⟨fun n cell x hm hnr hall hx => ?_, h2⟩
  rw [h1 n cell hm hnr, hx]
  have : Spec.beforeText cell compounds = compounds := by
    unfold Spec.beforeText
    refine List.takeWhile_eq_self_iff.2 ?_
    intro d hd
    obtain ⟨y, hy⟩ := hall d hd
    simp [hy]
  rw [this, List.contains_iff_mem.2 hc]

/-- C151, what happens after a text: the rest of the row is not read. -/
theorem c151_text (compounds pre post : List String) (sheet : List (Option String × (String → PropCell))) (row c d n : String)
    (cell : String → PropCell) (hsplit : compounds = pre ++ d :: post) (hn : compounds.Nodup)
    (hs : (sheet.filterMap fun r => r.1.map lowerStr).Nodup) (hr : row ∈ mtRows) (hm : (some n, cell) ∈ sheet)
    (hnr : lowerStr n = row) (hd : cell d = .text) (hc : c ∈ post) : (shMt compounds sheet).entry row c = 0 := by
  rw [(shMt_entry (c := c) hn hr sheet hs).1 n cell hm hnr]
  have : (Spec.beforeText cell compounds).contains c = false := by
    rw [← Bool.not_eq_true, List.contains_iff_mem]
    intro hmem
    have hsub : Spec.beforeText cell compounds <+: pre := by
      unfold Spec.beforeText
      rw [hsplit, List.takeWhile_append]
      split
      · rw [List.takeWhile_cons, hd]
        simp
      · exact List.takeWhile_prefix _
    have := hsub.sublist.mem hmem
    rw [hsplit, List.nodup_append] at hn
    exact hn.2.2 c this c (List.mem_cons_of_mem _ hc) rfl
  rw [this]

/-- A sheet with `Kf` given as text for the first compound and as a number for the second. -/
def textSheet : List (Option String × (String → PropCell)) :=
  [(some "MW", fun _ => .num 100), (some "Kf", fun c => if c = "A" then .text else .num 1), (none, fun _ => .text)]

theorem c151_false : ¬ C151 := by
  intro H
  have h := (H ["A", "B"] textSheet "kf" "B" (by decide) (by decide) (by decide) (by decide)).1 "Kf"
    (fun c => if c = "A" then .text else .num 1) 1 (by simp [textSheet]) (by decide) (by rw [if_neg (by decide)])
  have h' := c151_text ["A", "B"] [] ["B"] textSheet "kf" "B" "A" "Kf" (fun c => if c = "A" then .text else .num 1) rfl
    (by decide) (by decide) (by decide) (by simp [textSheet]) (by decide) (by rw [if_pos rfl]) (by decide)
  rw [h'] at h
  norm_num at h

/-! ### C152: keywords of the class -/

/-- Minutes in a unit of time, litres in a unit of volume, micrograms in a unit of mass, by definition. -/
noncomputable def Spec.gacTime : List (String × ℝ) := [("days", 1440), ("hours", 60), ("mins", 1)]
noncomputable def Spec.gacVolume : List (String × ℝ) := [("gal", 3.785411784), ("ml", 1 / 1000), ("L", 1)]
noncomputable def Spec.gacMass : List (String × ℝ) := [("mg", 1000), ("ug", 1), ("ng", 1 / 1000)]

/-- C152: the keywords `time_type`, `flow_type`, `conc_type` are converted by the size of the unit; without them the units
are days, millilitres and nanograms. -/
theorem c152_keywords :
    (∀ u s, Spec.gacTime.lookup u = some s → gacTMult none none (some u) = .ok s) ∧
    (∀ u s, Spec.gacVolume.lookup u = some s → gacFlowMult none none (some u) = .ok s) ∧
    (∀ u s, Spec.gacMass.lookup u = some s → gacMassMul none none (some u) = .ok s) ∧
    gacTMult none none none = .ok 1440 ∧ gacFlowMult none none none = .ok (1 / 1000) ∧
    gacMassMul none none none = .ok (1 / 1000) := by
  have key : ∀ (l : List (String × ℝ)) (u : String) (s : ℝ), l.lookup u = some s → (u, s) ∈ l := by
    intro l u s
    induction l with
    | nil => intro h; cases h
    | cons a l ih =>
      intro h
      rw [List.lookup_cons] at h
      by_cases hu : u = a.1
      · rw [show (u == a.1) = true by simpa using hu] at h
        obtain rfl := Option.some.inj h
        rw [hu]; exact List.mem_cons_self
      · rw [show (u == a.1) = false by simpa using hu] at h
        exact List.mem_cons_of_mem _ (ih h)
  refine ⟨fun u s h => ?_, fun u s h => ?_, fun u s h => ?_, ?_, ?_, ?_⟩
  · have := key _ _ _ h
    simp only [Spec.gacTime, List.mem_cons, Prod.mk.injEq, List.not_mem_nil, or_false] at this
    rcases this with ⟨rfl, rfl⟩ | ⟨rfl, rfl⟩ | ⟨rfl, rfl⟩ <;> (unfold gacTMult; norm_num; first | done | decide | (rw [if_neg (by decide), if_neg (by decide)]))
  · have := key _ _ _ h
    simp only [Spec.gacVolume, List.mem_cons, Prod.mk.injEq, List.not_mem_nil, or_false] at this
    rcases this with ⟨rfl, rfl⟩ | ⟨rfl, rfl⟩ | ⟨rfl, rfl⟩ <;> (unfold gacFlowMult; norm_num; first | done | decide | (rw [if_neg (by decide), if_neg (by decide)]))
  · have := key _ _ _ h
    simp only [Spec.gacMass, List.mem_cons, Prod.mk.injEq, List.not_mem_nil, or_false] at this
    rcases this with ⟨rfl, rfl⟩ | ⟨rfl, rfl⟩ | ⟨rfl, rfl⟩ <;> (unfold gacMassMul; norm_num; first | done | decide | (rw [if_neg (by decide), if_neg (by decide)]))
  all_goals (simp only [gacTMult, gacFlowMult, gacMassMul, Option.getD_none]; norm_num; first | done | decide)

/-- C152: a row `time`, `flow_type` or `units` in the column table makes the factor of the table count and the keyword
not; a table without the factor is an error. -/
theorem c152_table (u : String) (kw : Option String) (m : ℝ) :
    gacTMult (some u) (some m) kw = .ok m ∧ gacFlowMult (some u) (some m) kw = .ok m ∧
    gacMassMul (some u) (some m) kw = .ok m ∧ gacTMult (some u) none kw = .error .keyError ∧
    gacFlowMult (some u) none kw = .error .keyError ∧ gacMassMul (some u) none kw = .error .keyError :=
  ⟨rfl, rfl, rfl, rfl, rfl, rfl⟩

/-- C152, what is not checked: a factor without its row is ignored, and a name that is not known is taken as minutes,
litres, micrograms. -/
theorem c152_unchecked (u : String) (m : ℝ) (kw : Option String) :
    gacTMult none (some m) kw = gacTMult none none kw ∧
    (u ≠ "days" → u ≠ "hours" → gacTMult none none (some u) = .ok 1) ∧
    (u ≠ "gal" → u ≠ "ml" → gacFlowMult none none (some u) = .ok 1) ∧
    (u ≠ "ng" → u ≠ "mg" → gacMassMul none none (some u) = .ok 1) := by
  refine ⟨rfl, fun h1 h2 => ?_, fun h1 h2 => ?_, fun h1 h2 => ?_⟩
  · simp [gacTMult, h1, h2]
  · simp [gacFlowMult, h1, h2]
  · simp only [gacMassMul, Option.getD_some, if_neg h1, if_neg h2, ite_self]

/-- The claim in full: a unit that is not known is refused. -/
def C152 : Prop := ∀ u s, gacTMult none none (some u) = .ok s → Spec.gacTime.lookup u = some s

theorem c152_false : ¬ C152 := by
  intro H
  have h := H "weeks" 1 ((c152_unchecked "weeks" 0 none).2.1 (by decide) (by decide))
  have : Spec.gacTime.lookup "weeks" = none := rfl
  rw [this] at h
  cases h

/-- C152: coefficients given by the keyword `mass_transfer`, in any letter case, for compounds and names that do not repeat,
are those of the table, and the others are zero. -/
theorem c152_masstransfer (entries : List (String × List (String × ℝ))) (row c : String) (hr : row ∈ mtRows)
    (hn : (entries.map (·.1)).Nodup) (hk : ∀ e ∈ entries, (e.2.map fun v => lowerStr v.1).Nodup) :
    (∀ e ∈ entries, e.1 = c → ∀ v ∈ e.2, lowerStr v.1 = row → (gacMt entries).entry row c = v.2) ∧
    ((∀ e ∈ entries, e.1 = c → ∀ v ∈ e.2, lowerStr v.1 ≠ row) → (gacMt entries).entry row c = 0) := by
  have inner : ∀ (d : String) (l : List (String × ℝ)) (t : MtTab), (l.map fun v => lowerStr v.1).Nodup →
      (d ≠ c ∨ (∀ v ∈ l, lowerStr v.1 ≠ row) → (l.foldl (fun t v =>
        if lowerStr v.1 ∈ ["kf", "dp", "ds"] then t.put (lowerStr v.1) d v.2 else t) t).entry row c = t.entry row c) ∧
      (d = c → ∀ v ∈ l, lowerStr v.1 = row → (l.foldl (fun t v =>
        if lowerStr v.1 ∈ ["kf", "dp", "ds"] then t.put (lowerStr v.1) d v.2 else t) t).entry row c = v.2) := by
    intro d l
    induction l with
    | nil => exact fun t _ => ⟨fun _ => rfl, fun _ v h => by cases h⟩
    | cons w l ih =>
      intro t hd
      obtain ⟨hw, hd'⟩ := List.nodup_cons.1 hd
      rw [List.foldl_cons]
      obtain ⟨ih1, ih2⟩ := ih (if lowerStr w.1 ∈ ["kf", "dp", "ds"] then t.put (lowerStr w.1) d w.2 else t) hd'
      refine ⟨fun h => ?_, fun hdc v hv hvr => ?_⟩
      · rw [ih1 (h.imp_right fun h v hv => h v (List.mem_cons_of_mem _ hv))]
        by_cases hm : lowerStr w.1 ∈ ["kf", "dp", "ds"]
        · rw [if_pos hm, entry_put t hm hr, if_neg]
          rintro ⟨e1, e2⟩
          rcases h with h | h
          · exact h e2.symm
          · exact h w List.mem_cons_self e1.symm
        · rw [if_neg hm]
      · rcases List.mem_cons.1 hv with rfl | hv
        · rw [ih1 (Or.inr fun v' hv' e => hw (by
            show lowerStr v.1 ∈ _
            rw [hvr, ← e]
            exact List.mem_map.2 ⟨v', hv', rfl⟩))]
          rw [if_pos (show lowerStr v.1 ∈ ["kf", "dp", "ds"] from hvr ▸ hr), entry_put t (hvr ▸ hr) hr,
            if_pos ⟨hvr.symm, hdc.symm⟩]
        · exact ih2 hdc v hv hvr
  unfold gacMt
  induction entries using List.reverseRecOn with
  | nil => exact ⟨fun e h => absurd h List.not_mem_nil, fun _ => by simp [MtTab.entry]⟩
  | append_singleton entries e ih =>
    rw [List.map_append, List.nodup_append] at hn
    obtain ⟨hn1, -, hn2⟩ := hn
    obtain ⟨ih1, ih2⟩ := ih hn1 fun e' h => hk e' (List.mem_append_left _ h)
    rw [List.foldl_append, List.foldl_cons, List.foldl_nil]
    obtain ⟨in1, in2⟩ := inner e.1 e.2 (entries.foldl (fun t e => e.2.foldl (fun t v =>
      if lowerStr v.1 ∈ ["kf", "dp", "ds"] then t.put (lowerStr v.1) e.1 v.2 else t) t) fun _ => ⟨0, 0, 0⟩)
      (hk e (by simp))
    refine ⟨fun e' he' hc v hv hvr => ?_, fun hall => ?_⟩
    · rcases List.mem_append.1 he' with he' | he'
      · have hne : e.1 ≠ c := by
          intro h
          exact hn2 c (List.mem_map.2 ⟨e', he', hc⟩) c (by simp [h]) rfl
        rw [in1 (Or.inl hne)]
        exact ih1 e' he' hc v hv hvr
      · obtain rfl := List.mem_singleton.1 he'
        exact in2 hc v hv hvr
    · have h0 := ih2 fun e' h => hall e' (List.mem_append_left _ h)
      by_cases hc : e.1 = c
      · rw [in1 (Or.inr fun v hv => hall e (by simp) hc v hv)]; exact h0
      · rw [in1 (Or.inl hc)]; exact h0

example : (["A", "B"] : List String).Nodup ∧ (textSheet.filterMap fun r => r.1.map lowerStr).Nodup ∧ "kf" ∈ mtRows := by decide

/-! ### C153: the fit -/

/-- The claim in full: the second result of the fit is the table of fitted isotherms. -/
def C153 : Prop := ∀ (built : Except PyErr Unit) (fit : Except PyErr KTab) (compounds : List String)
  (run : KTab → Except PyErr (String → List (ℝ × ℝ))), ∀ k ∈ (shFitter built fit compounds run).2,
    ∃ kt, fit = .ok kt ∧ k.1 ∈ compounds ∧ k.2 = kt k.1

/-- C153, when nothing fails: the fitted table and the curves it gives. -/
theorem c153_partial (kt : KTab) (compounds : List String) (run : KTab → Except PyErr (String → List (ℝ × ℝ)))
    (res : String → List (ℝ × ℝ)) (h : run kt = .ok res) :
    shFitter (.ok ()) (.ok kt) compounds run = (.ok res, compounds.map fun c => (c, kt c)) := by
  simp [shFitter, h]

/-- C153, what is returned otherwise: an isotherm of a compound called 0 with K and 1/n both one or both two. -/
theorem c153_failed (built : Except PyErr Unit) (fit : Except PyErr KTab) (compounds : List String)
    (run : KTab → Except PyErr (String → List (ℝ × ℝ))) {e : PyErr} (h : (shFitter built fit compounds run).1 = .error e) :
    ∃ x : ℝ, (x = 1 ∨ x = 2) ∧ (shFitter built fit compounds run).2 = [("0", ⟨x, x, x, x, x⟩)] := by
  rcases built with b | b
  · exact ⟨2, Or.inr rfl, rfl⟩
  · rcases fit with f | kt
    · exact ⟨1, Or.inl rfl, rfl⟩
    · rcases hr : run kt with r | r
      · exact ⟨2, Or.inr rfl, by simp [shFitter, hr]⟩
      · simp [shFitter, hr] at h

theorem c153_false : ¬ C153 := by
  intro H
  obtain ⟨kt, h, -⟩ := H (.ok ()) (.error .valueError) [] (fun _ => .error .valueError) ("0", ⟨1, 1, 1, 1, 1⟩) (by simp [shFitter])
  cases h

end WTM
