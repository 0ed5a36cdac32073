import Mathlib.Tactic
import Verif.Model.EcmFit
import Verif.Model.GacForce

/-! C223, C224: what `fit_ecm2` minimises. -/
set_option autoImplicit false
namespace WTM
open BigOperators

/-! ### C223 -/

/-- The curves `f` and the data agree for every compound at every whole day accepted by `p`. -/
def Spec.AgreeOn (names : List String) (f : ℕ → ℝ → ℝ) (dict : List (String × EcmCurve)) (p : EcmCurve → ℕ → Prop) : Prop :=
  ∀ e ∈ dict, ∀ i, names[i]? = some e.1 → ∀ k : ℕ, p e.2 k → e.2.call k = .ok (f i k)

/-- Every compound is a column, once; every curve can be called up to the end of its own data, and has no end before
day zero. -/
def Spec.GoodDict (names : List String) (dict : List (String × EcmCurve)) : Prop :=
  names.Nodup ∧ dict ≠ [] ∧ ∀ e ∈ dict, e.1 ∈ names ∧ 0 ≤ e.2.last ∧ ∀ t, 0 ≤ t → t ≤ e.2.last → ∃ y, e.2.call t = .ok y

/-- The full statement: the error is zero exactly when the plotted curves agree with the data at every whole day the
data cover. -/
def C223 : Prop := ∀ (names : List String) (plot : ℕ → ℝ → ℝ) (dict : List (String × EcmCurve)),
  Spec.GoodDict names dict → (∀ e ∈ dict, ∀ t, ∃ y, e.2.call t = .ok y) →
  (fit2Err names plot dict = .ok 0 ↔ Spec.AgreeOn names plot dict fun g k => (k : ℝ) ≤ g.last)

theorem mem_fit2Days {T t : ℝ} : t ∈ fit2Days T ↔ ∃ k : ℕ, (k : ℝ) < T ∧ t = k := by
  unfold fit2Days
  simp only [List.mem_map, List.mem_range, Nat.lt_ceil]
  constructor
  · rintro ⟨k, h1, h2⟩; exact ⟨k, h1, h2.symm⟩
  · rintro ⟨k, h1, h2⟩; exact ⟨k, h1, h2.symm⟩

/-- The value of the sum once every call succeeds. -/
noncomputable def sumSq (f : ℝ → ℝ) (g : EcmCurve) (ts : List ℝ) : ℝ :=
  (ts.map fun t => match g.call t with | .ok y => (f t - y) ^ 2 | .error _ => 0).sum

theorem fit2Sum_ok {f : ℝ → ℝ} {g : EcmCurve} {ts : List ℝ} (h : ∀ t ∈ ts, ∃ y, g.call t = .ok y) :
    fit2Sum f g ts = .ok (sumSq f g ts) := by
  induction ts with
  | nil => rfl
  | cons t ts ih =>
    obtain ⟨y, hy⟩ := h t (by simp)
    have ih' := ih fun u hu => h u (by simp [hu])
    unfold fit2Sum
    simp only [hy, ih', sumSq, List.map_cons, List.sum_cons]

theorem fit2Sum_error {f : ℝ → ℝ} {g : EcmCurve} {ts : List ℝ} (h : ∃ t ∈ ts, ∃ e, g.call t = .error e) :
    ∃ e, fit2Sum f g ts = .error e := by
  induction ts with
  | nil => simp at h
  | cons t ts ih =>
    obtain ⟨u, hu, e, he⟩ := h
    unfold fit2Sum
    rcases List.mem_cons.1 hu with rfl | hu
    · rw [he]; exact ⟨e, rfl⟩
    · obtain ⟨e', h'⟩ := ih ⟨u, hu, e, he⟩
      rw [h']
      cases hc : g.call t with
      | error e2 => exact ⟨e2, rfl⟩
      | ok y => exact ⟨e', rfl⟩

theorem sumSq_nonneg (f : ℝ → ℝ) (g : EcmCurve) (ts : List ℝ) : 0 ≤ sumSq f g ts := by
  unfold sumSq
  refine List.sum_nonneg fun x hx => ?_
  obtain ⟨t, -, rfl⟩ := List.mem_map.1 hx
  split
  · positivity
  · exact le_rfl

theorem sumSq_zero {f : ℝ → ℝ} {g : EcmCurve} {ts : List ℝ} (h : ∀ t ∈ ts, ∃ y, g.call t = .ok y) :
    sumSq f g ts = 0 ↔ ∀ t ∈ ts, g.call t = .ok (f t) := by
  induction ts with
  | nil => simp [sumSq]
  | cons t ts ih =>
    obtain ⟨y, hy⟩ := h t (by simp)
    have ih' := ih fun u hu => h u (by simp [hu])
    have e : sumSq f g (t :: ts) = (f t - y) ^ 2 + sumSq f g ts := by simp [sumSq, hy]
    have n := sumSq_nonneg f g ts
    rw [e]
    constructor
    · intro h0
      have h1 : (f t - y) ^ 2 = 0 := le_antisymm (by nlinarith) (sq_nonneg _)
      have h2 : sumSq f g ts = 0 := by linarith
      have h3 : f t = y := by have := pow_eq_zero_iff (two_ne_zero) |>.1 h1; linarith
      intro u hu
      rcases List.mem_cons.1 hu with rfl | hu
      · rw [hy, h3]
      · exact ih'.1 h2 u hu
    · intro h0
      have h1 := h0 t (by simp)
      rw [hy] at h1
      injection h1 with h1
      rw [ih'.2 fun u hu => h0 u (by simp [hu]), h1]; ring

/-- The value of the loop once every call succeeds. -/
noncomputable def loopSq (names : List String) (plot : ℕ → ℝ → ℝ) (days : List ℝ) (dict : List (String × EcmCurve)) : ℝ :=
  (dict.map fun e => sumSq (plot (names.idxOf e.1)) e.2 days).sum

theorem fit2Loop_ok {names : List String} {plot : ℕ → ℝ → ℝ} {days : List ℝ} {dict : List (String × EcmCurve)}
    (h : ∀ e ∈ dict, e.1 ∈ names ∧ ∀ t ∈ days, ∃ y, e.2.call t = .ok y) :
    fit2Loop names plot days dict = .ok (loopSq names plot days dict) := by
  induction dict with
  | nil => rfl
  | cons e rest ih =>
    obtain ⟨c, g⟩ := e
    obtain ⟨h1, h2⟩ := h (c, g) (by simp)
    have ih' := ih fun u hu => h u (by simp [hu])
    unfold fit2Loop
    rw [if_pos h1, fit2Sum_ok h2, ih']
    simp [loopSq]

theorem loopSq_nonneg (names : List String) (plot : ℕ → ℝ → ℝ) (days : List ℝ) (dict : List (String × EcmCurve)) :
    0 ≤ loopSq names plot days dict := by
  unfold loopSq
  refine List.sum_nonneg fun x hx => ?_
  obtain ⟨e, -, rfl⟩ := List.mem_map.1 hx
  exact sumSq_nonneg _ _ _

theorem loopSq_zero {names : List String} {plot : ℕ → ℝ → ℝ} {days : List ℝ} {dict : List (String × EcmCurve)}
    (h : ∀ e ∈ dict, ∀ t ∈ days, ∃ y, e.2.call t = .ok y) :
    loopSq names plot days dict = 0 ↔ ∀ e ∈ dict, ∀ t ∈ days, e.2.call t = .ok (plot (names.idxOf e.1) t) := by
  induction dict with
  | nil => simp [loopSq]
  | cons e rest ih =>
    have ih' := ih fun u hu => h u (by simp [hu])
    have z := sumSq_zero (f := plot (names.idxOf e.1)) (h e (by simp))
    have e1 : loopSq names plot days (e :: rest) = sumSq (plot (names.idxOf e.1)) e.2 days + loopSq names plot days rest := by
      simp [loopSq]
    have n1 := sumSq_nonneg (plot (names.idxOf e.1)) e.2 days
    have n2 := loopSq_nonneg names plot days rest
    rw [e1]
    constructor
    · intro h0 u hu
      rcases List.mem_cons.1 hu with rfl | hu
      · exact z.1 (by linarith)
      · exact ih'.1 (by linarith) u hu
    · intro h0
      rw [z.2 (h0 e (by simp)), ih'.2 fun u hu => h0 u (by simp [hu]), add_zero]

/-- The error as a sum of squares: over the compounds, and for each over the whole days before the end of the data of the
compound listed first. -/
noncomputable def Spec.squares (names : List String) (f : ℕ → ℝ → ℝ) (data : String × EcmCurve → ℕ → ℝ) (T : ℝ)
    (dict : List (String × EcmCurve)) : ℝ :=
  (dict.map fun e => ∑ k ∈ Finset.range ⌈T⌉₊, (f (names.idxOf e.1) k - data e k) ^ 2).sum

theorem sumSq_eq {f : ℝ → ℝ} {g : EcmCurve} {T : ℝ} {y : ℕ → ℝ} (h : ∀ k : ℕ, (k : ℝ) < T → g.call k = .ok (y k)) :
    sumSq f g (fit2Days T) = ∑ k ∈ Finset.range ⌈T⌉₊, (f k - y k) ^ 2 := by
  unfold sumSq fit2Days
  rw [List.map_map, Finset.sum_range, ← List.sum_ofFn]
  congr 1
  apply List.ext_getElem (by simp)
  intro i h1 h2
  simp only [List.getElem_map, List.getElem_range, Function.comp, List.getElem_ofFn]
  rw [h i (Nat.lt_ceil.1 (by simpa using h1))]

/-- C223. The error is the sum of squares over those days, never negative, and zero exactly when the curves agree with
the data there. -/
theorem c223_partial {names : List String} {plot : ℕ → ℝ → ℝ} {c0 : String} {g0 : EcmCurve}
    {rest : List (String × EcmCurve)} (hn : names.Nodup) {data : String × EcmCurve → ℕ → ℝ}
    (hk : ∀ e ∈ (c0, g0) :: rest, e.1 ∈ names)
    (hd : ∀ e ∈ (c0, g0) :: rest, ∀ k : ℕ, (k : ℝ) < g0.last → e.2.call k = .ok (data e k)) :
    fit2Err names plot ((c0, g0) :: rest) = .ok (Spec.squares names plot data g0.last ((c0, g0) :: rest)) ∧
    0 ≤ Spec.squares names plot data g0.last ((c0, g0) :: rest) ∧
    (fit2Err names plot ((c0, g0) :: rest) = .ok 0 ↔
      Spec.AgreeOn names plot ((c0, g0) :: rest) fun _ k => (k : ℝ) < g0.last) := by
  set dict := (c0, g0) :: rest with hdict
  have hc : ∀ e ∈ dict, ∀ t ∈ fit2Days g0.last, ∃ y, e.2.call t = .ok y := by
    intro e he t ht
    obtain ⟨k, h1, rfl⟩ := mem_fit2Days.1 ht
    exact ⟨_, hd e he k h1⟩
  have hl : fit2Err names plot dict = .ok (loopSq names plot (fit2Days g0.last) dict) :=
    fit2Loop_ok fun e he => ⟨hk e he, hc e he⟩
  have hs : loopSq names plot (fit2Days g0.last) dict = Spec.squares names plot data g0.last dict := by
    unfold loopSq Spec.squares
    congr 1
    exact List.map_congr_left fun e he => sumSq_eq (hd e he)
  refine ⟨by rw [hl, hs], hs ▸ loopSq_nonneg _ _ _ _, ?_⟩
  have idx : ∀ {c : String} {i : ℕ}, names[i]? = some c → names.idxOf c = i := by
    intro c i h
    obtain ⟨h1, h2⟩ := List.getElem?_eq_some_iff.1 h
    rw [← h2]; exact hn.idxOf_getElem i h1
  rw [hl]
  constructor
  · intro h0
    have h1 : loopSq names plot (fit2Days g0.last) dict = 0 := by injection h0
    rw [loopSq_zero hc] at h1
    intro e he i hi k hk'
    rw [← idx hi]
    exact h1 e he k (mem_fit2Days.2 ⟨k, hk', rfl⟩)
  · intro h0
    rw [(loopSq_zero hc).2]
    intro e he t ht
    obtain ⟨k, h1, rfl⟩ := mem_fit2Days.1 ht
    refine h0 e he (names.idxOf e.1) ?_ k h1
    rw [List.getElem?_eq_getElem (List.idxOf_lt_length_of_mem (hk e he)), List.getElem_idxOf]

/-- C223. Nothing after the last day of the compound listed first enters: other data and another curve there give the
same error. -/
theorem c223_after (names : List String) {plot plot' : ℕ → ℝ → ℝ} {dict : List (String × EcmCurve)} {T : ℝ}
    (call' : String × EcmCurve → ℝ → Except PyErr ℝ)
    (hT : ∀ e, dict.head? = some e → e.2.last = T)
    (hp : ∀ i (k : ℕ), (k : ℝ) < T → plot i k = plot' i k)
    (hc : ∀ e ∈ dict, ∀ k : ℕ, (k : ℝ) < T → e.2.call k = call' e k) :
    fit2Err names plot dict = fit2Err names plot' (dict.map fun e => (e.1, ⟨e.2.last, call' e⟩)) := by
  have sum : ∀ (f f' : ℝ → ℝ) (g g' : EcmCurve) (ts : List ℝ), (∀ t ∈ ts, f t = f' t ∧ g.call t = g'.call t) →
      fit2Sum f g ts = fit2Sum f' g' ts := by
    intro f f' g g' ts
    induction ts with
    | nil => intro _; rfl
    | cons t ts ih =>
      intro h
      unfold fit2Sum
      rw [(h t (by simp)).1, (h t (by simp)).2, ih fun u hu => h u (by simp [hu])]
  have loop : ∀ l : List (String × EcmCurve), (∀ e ∈ l, ∀ k : ℕ, (k : ℝ) < T → e.2.call k = call' e k) →
      fit2Loop names plot (fit2Days T) l =
        fit2Loop names plot' (fit2Days T) (l.map fun e => (e.1, ⟨e.2.last, call' e⟩)) := by
    intro l
    induction l with
    | nil => intro _; rfl
    | cons e l ih =>
      intro h
      obtain ⟨c, g⟩ := e
      simp only [List.map_cons]
      unfold fit2Loop
      rw [ih fun u hu => h u (by simp [hu]), sum (plot (names.idxOf c)) (plot' (names.idxOf c)) g ⟨g.last, call' (c, g)⟩]
      intro t ht
      obtain ⟨k, h1, rfl⟩ := mem_fit2Days.1 ht
      exact ⟨hp _ k h1, h (c, g) (by simp) k h1⟩
  cases dict with
  | nil => rfl
  | cons e l =>
    obtain ⟨c, g⟩ := e
    have hg : g.last = T := hT (c, g) rfl
    have := loop ((c, g) :: l) hc
    simp only [List.map_cons] at this ⊢
    unfold fit2Err
    simp only [hg] at this ⊢
    exact this

/-- C223. It raises if there is no compound, if one is not a column of the object, or if the data of one cannot be read at
a whole day before the end of the first one's. -/
theorem c223_raises (names : List String) (plot : ℕ → ℝ → ℝ) :
    fit2Err names plot [] = .error .indexError ∧
    ∀ (c0 : String) (g0 : EcmCurve) (rest : List (String × EcmCurve)) (e : String × EcmCurve), e ∈ (c0, g0) :: rest →
      (e.1 ∉ names ∨ ∃ k : ℕ, (k : ℝ) < g0.last ∧ ∃ err, e.2.call k = .error err) →
      ∃ err, fit2Err names plot ((c0, g0) :: rest) = .error err := by
  refine ⟨rfl, fun c0 g0 rest e he hb => ?_⟩
  show ∃ err, fit2Loop names plot (fit2Days g0.last) ((c0, g0) :: rest) = .error err
  generalize (c0, g0) :: rest = l at he
  induction l with
  | nil => simp at he
  | cons u l ih =>
    obtain ⟨c, g⟩ := u
    unfold fit2Loop
    by_cases hc : c ∈ names
    · rw [if_pos hc]
      rcases List.mem_cons.1 he with rfl | he
      · rcases hb with hb | ⟨k, h1, err, h2⟩
        · exact absurd hc hb
        · obtain ⟨e', h'⟩ := fit2Sum_error (f := plot (names.idxOf c)) (g := g) (ts := fit2Days g0.last)
            ⟨k, mem_fit2Days.2 ⟨k, h1, rfl⟩, err, h2⟩
          rw [h']; exact ⟨e', rfl⟩
      · obtain ⟨e', h'⟩ := ih he
        rw [h']
        cases fit2Sum (plot (names.idxOf c)) g (fit2Days g0.last) with
        | error e2 => exact ⟨e2, rfl⟩
        | ok y => exact ⟨e', rfl⟩
    · rw [if_neg hc]; exact ⟨_, rfl⟩

/-- C223. Data that the model itself produces have error zero at the parameters that produced them. -/
theorem c223_exact (d : EcmData) (b : EcmBed) (root : Root) {names : List String} (hn : names.Nodup) (ks xni : ℕ → ℝ)
    {m : EcmData} (hm : m = ⟨d.n, ks, xni, fun i => 1 / xni i, d.mw, d.c0, d.co⟩) {dict : List (String × EcmCurve)}
    (hne : dict ≠ []) (hk : ∀ e ∈ dict, e.1 ∈ names)
    (hd : ∀ e ∈ dict, ∀ i, names[i]? = some e.1 → ∀ t, e.2.call t = .ok (m.plot b (m.run b root) i t)) :
    d.fit2 b root names dict ks xni = .ok 0 := by
  subst hm
  match dict, hne with
  | (c, g) :: r, _ =>
    have h : ∀ e ∈ (c, g) :: r, ∀ t, e.2.call t = .ok ((d.trial ks xni).plot b ((d.trial ks xni).run b root)
        (names.idxOf e.1) t) := by
      intro e he t
      refine hd e he _ ?_ t
      rw [List.getElem?_eq_getElem (List.idxOf_lt_length_of_mem (hk e he)), List.getElem_idxOf]
    refine (c223_partial hn (data := fun e k => (d.trial ks xni).plot b ((d.trial ks xni).run b root) (names.idxOf e.1) k)
      hk fun e he k _ => h e he k).2.2.2 ?_
    intro e he i hi k _
    exact hd e he i hi k

example (d : EcmData) (b : EcmBed) (root : Root) (ks xni : ℕ → ℝ) : ∃ (dict : List (String × EcmCurve)), dict ≠ [] ∧
    (∀ e ∈ dict, e.1 ∈ ["A"]) ∧ ∀ e ∈ dict, ∀ i, ["A"][i]? = some e.1 → ∀ t, e.2.call t = .ok
      ((⟨d.n, ks, xni, fun i => 1 / xni i, d.mw, d.c0, d.co⟩ : EcmData).plot b
        ((⟨d.n, ks, xni, fun i => 1 / xni i, d.mw, d.c0, d.co⟩ : EcmData).run b root) i t) := by
  set m : EcmData := ⟨d.n, ks, xni, fun i => 1 / xni i, d.mw, d.c0, d.co⟩
  refine ⟨[("A", ⟨2, fun t => .ok (m.plot b (m.run b root) 0 t)⟩)], by simp, by simp, ?_⟩
  intro e he i hi t
  simp only [List.mem_singleton] at he
  subst he
  match i, hi with
  | 0, _ => rfl

theorem fit2Days_one : fit2Days 1 = [0] := by
  have : ⌈(1:ℝ)⌉₊ = 1 := Nat.ceil_one
  simp [fit2Days, this]

theorem fit2Days_two : fit2Days 2 = [0, 1] := by
  simp [fit2Days, List.range_succ]

/-- Data for two days whose second value is off: only day zero is compared. -/
theorem c223_false : ¬ C223 := by
  intro h
  have := (h ["A"] (fun _ _ => 0) [("A", ⟨1, fun t => .ok t⟩)] ⟨by simp, by simp, by simp⟩ (by simp)).1
    (by simp [fit2Err, fit2Loop, fit2Days_one, fit2Sum])
  have h1 := this ("A", ⟨1, fun t => .ok t⟩) (by simp) 0 rfl 1 (by norm_num)
  simp at h1

/-- The hypotheses of `c223_partial` hold of two compounds with data of three days read by an interpolator that raises
outside of its table. -/
example : ∃ (names : List String) (c0 : String) (g0 : EcmCurve) (rest : List (String × EcmCurve))
    (data : String × EcmCurve → ℕ → ℝ), names.Nodup ∧ rest ≠ [] ∧ (∀ e ∈ (c0, g0) :: rest, e.1 ∈ names) ∧ 2 < g0.last ∧
    (∀ e ∈ (c0, g0) :: rest, ∀ k : ℕ, (k : ℝ) < g0.last → e.2.call k = .ok (data e k)) ∧
    ∃ err, g0.call 4 = .error err := by
  refine ⟨["A", "B"], "A", ⟨3, interpStrict [(0, 0), (3, 6)]⟩, [("B", ⟨3, interpStrict [(0, 0), (3, 6)]⟩)],
    fun _ k => interpExtrap [(0, 0), (3, 6)] k, by simp, by simp, by simp, by norm_num, ?_, .valueError, ?_⟩
  · intro e he k hk
    have hk' : ¬ ((k : ℝ) < 0 ∨ (3:ℝ) < k) := by
      rintro (h | h)
      · exact absurd (Nat.cast_nonneg (α := ℝ) k) (not_le.2 h)
      · exact absurd hk (not_lt.2 h.le)
    simp only [List.mem_cons, List.not_mem_nil, or_false] at he
    rcases he with rfl | rfl <;> simp [interpStrict] <;> simpa using hk'
  · simp [interpStrict]; norm_num

/-! ### C224 -/

/-- The full statement: the order in which the compounds are listed does not matter. -/
def C224 : Prop := ∀ (names : List String) (plot : ℕ → ℝ → ℝ) (dict dict' : List (String × EcmCurve)),
  Spec.GoodDict names dict → (∀ e ∈ dict, ∀ t, ∃ y, e.2.call t = .ok y) → dict.Perm dict' →
  fit2Err names plot dict = fit2Err names plot dict'

/-- C224. It does not matter between compounds whose data end at the same time. -/
theorem c224_partial {names : List String} {plot : ℕ → ℝ → ℝ} {dict dict' : List (String × EcmCurve)}
    (hg : Spec.GoodDict names dict) (hp : dict.Perm dict') {T : ℝ} (hT : ∀ e ∈ dict, e.2.last = T) :
    fit2Err names plot dict = fit2Err names plot dict' := by
  obtain ⟨-, hne, h⟩ := hg
  have val : ∀ l : List (String × EcmCurve), l ≠ [] → (∀ e ∈ l, e ∈ dict) →
      fit2Err names plot l = .ok (loopSq names plot (fit2Days T) l) := by
    intro l hl hm
    match l, hl with
    | (c, g) :: r, _ =>
      have hgT : g.last = T := hT (c, g) (hm _ (by simp))
      show fit2Loop names plot (fit2Days g.last) ((c, g) :: r) = _
      rw [hgT]
      refine fit2Loop_ok fun e he => ⟨(h e (hm e he)).1, fun t ht => ?_⟩
      obtain ⟨k, h1, rfl⟩ := mem_fit2Days.1 ht
      exact (h e (hm e he)).2.2 k (Nat.cast_nonneg k) (by rw [hT e (hm e he)]; exact h1.le)
  have hne' : dict' ≠ [] := fun h0 => hne (List.perm_nil.1 (h0 ▸ hp))
  rw [val dict hne fun _ he => he, val dict' hne' fun e he => hp.mem_iff.2 he]
  congr 1
  unfold loopSq
  exact (hp.map _).sum_eq

/-- One compound with data of one day, one with data of two: the second day counts only if the longer is first. -/
theorem c224_false : ¬ C224 := by
  intro h
  have hg : Spec.GoodDict ["A", "B"] [("A", ⟨1, fun _ => .ok 0⟩), ("B", ⟨2, fun t => .ok t⟩)] :=
    ⟨by simp, by simp, by simp⟩
  have := h ["A", "B"] (fun _ _ => 0) _ _ hg (by simp) (List.Perm.swap _ _ [])
  simp [fit2Err, fit2Loop, fit2Days_one, fit2Days_two, fit2Sum] at this

example : ∃ (names : List String) (dict dict' : List (String × EcmCurve)) (T : ℝ), Spec.GoodDict names dict ∧
    dict.Perm dict' ∧ dict ≠ dict' ∧ ∀ e ∈ dict, e.2.last = T :=
  ⟨["A", "B"], [("A", ⟨2, fun _ => .ok 0⟩), ("B", ⟨2, fun t => .ok t⟩)], _, 2, ⟨by simp, by simp, by simp⟩,
    List.Perm.swap _ _ [], by simp, by simp⟩

end WTM
