import Mathlib.Tactic
import Mathlib.Algebra.Order.Floor.Semifield
import Verif.Model.LeadLag
import Verif.Spec.Units

/-! C70-C73, C102-C106: lead-lag systems. -/
set_option autoImplicit false
namespace WTM
open BigOperators

/-! ### C70 -/

namespace Spec

/-- The spellings of each configuration. -/
def configNames : LLRun → List String
  | .gac => ["gac", "gac-gac"]
  | .ix => ["ix", "iex", "ix-ix", "iex-iex"]
  | .ixGac => ["ix-gac", "iex-gac"]
  | .gacIx => ["gac-ix", "gac-iex"]
  | _ => []

/-- `t` is `name` in any letter case. -/
def Spells (t name : String) : Prop := t.toList.map Char.toLower = name.toList

end Spec

theorem spells_iff (t name : String) : Spec.Spells t name ↔ lowerStr t = name := by
  unfold Spec.Spells lowerStr
  constructor
  · intro h; rw [h]; exact String.ofList_toList
  · intro h; rw [← h]; exact String.toList_ofList.symm

/-- C70. Every configuration runs under each of its spellings and nothing else runs. -/
def C70 : Prop := ∀ (kw : Bool) (t : String),
  (∀ r, ∀ name ∈ Spec.configNames r, Spec.Spells t name → runLL false kw t = .ok r) ∧
    ((∀ r, ∀ name ∈ Spec.configNames r, ¬ Spec.Spells t name) → runLL false kw t = .ok .nothing)

/-- C70 is false: `gac-iex` runs nothing. -/
theorem c70_false : ¬ C70 := by
  intro h
  have h1 := (h false "gac-iex").1 .gacIx "gac-iex" (by decide) (by unfold Spec.Spells; decide)
  have h2 : runLL false false "gac-iex" = .ok .nothing := by
    have e : lowerStr "gac-iex" = "gac-iex" := by decide
    unfold runLL
    simp only [e]
    decide
  rw [h2] at h1
  cases h1

/-- C70, what holds: every other spelling in any letter case runs its configuration, unless a list of compounds is
passed to a mixed one. Missing: `gac-iex` and that case. -/
theorem c70_partial (t : String) :
    (∀ kw, ∀ name ∈ Spec.configNames .gac, Spec.Spells t name → runLL false kw t = .ok .gac) ∧
    (∀ kw, ∀ name ∈ Spec.configNames .ix, Spec.Spells t name → runLL false kw t = .ok .ix) ∧
    (∀ name ∈ Spec.configNames .ixGac, Spec.Spells t name → runLL false false t = .ok .ixGac) ∧
    (Spec.Spells t "gac-ix" → runLL false false t = .ok .gacIx) ∧
    (∀ kw, (∀ r, ∀ name ∈ Spec.configNames r, ¬ Spec.Spells t name) → runLL false kw t = .ok .nothing) := by
  simp only [spells_iff]
  refine ⟨?_, ?_, ?_, ?_, ?_⟩
  · intro kw name hn h
    simp only [Spec.configNames, List.mem_cons, List.not_mem_nil, or_false] at hn
    unfold runLL
    rcases hn with rfl | rfl <;> simp only [h] <;> rfl
  · intro kw name hn h
    simp only [Spec.configNames, List.mem_cons, List.not_mem_nil, or_false] at hn
    unfold runLL
    rcases hn with rfl | rfl | rfl | rfl <;> simp only [h] <;> rfl
  · intro name hn h
    simp only [Spec.configNames, List.mem_cons, List.not_mem_nil, or_false] at hn
    unfold runLL
    rcases hn with rfl | rfl <;> simp only [h] <;> rfl
  · intro h
    unfold runLL
    simp only [h]
    rfl
  · intro kw h
    have h1 := h .gac
    have h2 := h .ix
    have h3 := h .ixGac
    have h4 := h .gacIx
    simp only [Spec.configNames, List.mem_cons, List.not_mem_nil, or_false, forall_eq_or_imp, forall_eq] at h1 h2 h3 h4
    unfold runLL
    simp [h1, h2, h3, h4]

/-- C70. Passing a list of compounds to a mixed configuration is an error, in every spelling. -/
theorem c70_compounds (t : String) (h : Spec.Spells t "ix-gac" ∨ Spec.Spells t "iex-gac" ∨ Spec.Spells t "gac-ix") :
    runLL false true t = .error .typeError := by
  simp only [spells_iff] at h
  unfold runLL
  rcases h with h | h | h <;> simp only [h] <;> rfl

/-- C70. With an error in the inputs nothing runs. -/
theorem c70_error (kw : Bool) (t : String) : runLL true kw t = .ok .errorDict := by
  simp [runLL]

/-- `"GAC-Ix"` is one of the spellings. -/
example : Spec.Spells "GAC-Ix" "gac-ix" := by unfold Spec.Spells; decide

/-! ### C71, C102: the shared flow -/

/-- C71. A number, or `[value, unit]`, becomes the resin flow. -/
def C71 : Prop := ∀ (x : ℝ) (u : String) (s : FlowState),
  (∃ s', sharedFlow true (.num x) s = .ok s' ∧ s'.ixValue = .item (.num x) ∧ s'.ixUnits = .item (.text "ml/min")) ∧
  ∃ s', sharedFlow true (.list [.num x, .text u]) s = .ok s' ∧ s'.ixValue = .item (.num x) ∧ s'.ixUnits = .item (.text u)

/-- C71 is false, even if the writes reach the table. -/
theorem c71_false : ¬ C71 := by
  intro h
  obtain ⟨s', h1, -⟩ := (h 1 "gpm" ⟨.item (.num 2), .item (.text "gpm"), 3⟩).1
  simp [sharedFlow] at h1

/-- C71, what holds: only a tuple of a value and a unit is applied, and only if the writes reach the table; a number
is a `TypeError`; a list is never applied. Missing: numbers and lists. -/
theorem c71_partial (thru : Bool) (x : ℝ) (u : String) (s : FlowState) :
    sharedFlow thru (.num x) s = .error .typeError ∧
    (∃ s', sharedFlow true (.tuple [.num x, .text u]) s = .ok s' ∧ s'.ixValue = .item (.num x) ∧
      s'.ixUnits = .item (.text u) ∧ s'.gac = s.gac) ∧
    (∃ s', sharedFlow thru (.list [.num x, .text u]) s = .ok s' ∧
      (s'.ixValue = .list [.num x, .text u] ∨ s'.ixValue = s.ixValue)) ∧
    sharedFlow false (.tuple [.num x, .text u]) s = .ok s := by
  refine ⟨rfl, ⟨_, rfl, rfl, rfl, rfl⟩, ?_, rfl⟩
  cases thru
  · exact ⟨_, rfl, Or.inr rfl⟩
  · exact ⟨_, rfl, Or.inl rfl⟩

namespace Spec

/-- `q` mL/min is the flow of `v` of the unit `u`. -/
def SameFlow (v : ℝ) (u : String) (q : ℝ) : Prop :=
  ∃ n d : String, Reads .volume .time u n d ∧ ∃ a b : ℚ, size .volume n = some a ∧ size .time d = some b ∧
    q * ((1 / 100) ^ 3 / 60) = v * (a / b)

end Spec

/-- C102. Asking for the resin's flow gives the carbon vessel that flow, whatever unit it is in. -/
def C102 : Prop := ∀ (thru : Bool) (v : ℝ) (u n d : String) (g : ℝ), Spec.Reads .volume .time u n d →
  ∃ s', sharedFlow thru (.text "use ix") ⟨.item (.num v), .item (.text u), g⟩ = .ok s' ∧ Spec.SameFlow v u s'.gac

/-- C102 is false: `cm3/s` is a `KeyError`. -/
theorem c102_false : ¬ C102 := by
  intro h
  obtain ⟨s', h1, -⟩ := h true 1 "cm3/s" "cm3" "s" 1 ⟨by decide, by decide, Or.inl (by decide)⟩
  have h2 : sharedFlow true (.text "use ix") ⟨.item (.num 1), .item (.text "cm3/s"), 1⟩ = .error .keyError := by
    have e : flowConverter.lookup "cm3/s" = none := rfl
    simp [sharedFlow, e]
  rw [h2] at h1
  cases h1

theorem useIx_eq {thru : Bool} {v g f : ℝ} {u : String} (h : flowConverter.lookup u = some f) :
    sharedFlow thru (.text "use ix") ⟨.item (.num v), .item (.text u), g⟩ =
      .ok ⟨.item (.num v), .item (.text u), v * f⟩ := by
  simp [sharedFlow, h]

/-- C102, what holds: exact for the units below. The resin is left as it was. Missing: every other unit. -/
theorem c102_partial (thru : Bool) (v g : ℝ) {u : String}
    (hu : u ∈ ["ml/min", "gpm", "gal/min", "l/s", "m3/s", "l/min"]) :
    ∃ s', sharedFlow thru (.text "use ix") ⟨.item (.num v), .item (.text u), g⟩ = .ok s' ∧
      Spec.SameFlow v u s'.gac ∧ s'.ixValue = .item (.num v) ∧ s'.ixUnits = .item (.text u) := by
  simp only [List.mem_cons, List.not_mem_nil, or_false] at hu
  rcases hu with rfl | rfl | rfl | rfl | rfl | rfl
  · refine ⟨_, useIx_eq (f := 1) rfl, ⟨"ml", "min", ⟨by decide, by decide, Or.inl (by decide)⟩, _, _, rfl, rfl, ?_⟩,
      rfl, rfl⟩
    push_cast; ring
  · refine ⟨_, useIx_eq (f := 3.785411784 * 1e3) rfl,
      ⟨"gal", "min", ⟨by decide, by decide, Or.inr ⟨rfl, rfl, rfl⟩⟩, _, _, rfl, rfl, ?_⟩, rfl, rfl⟩
    push_cast; ring
  · refine ⟨_, useIx_eq (f := 3.785411784 * 1e3) rfl,
      ⟨"gal", "min", ⟨by decide, by decide, Or.inl (by decide)⟩, _, _, rfl, rfl, ?_⟩, rfl, rfl⟩
    push_cast; ring
  · refine ⟨_, useIx_eq (f := 1e3 * 60) rfl, ⟨"l", "s", ⟨by decide, by decide, Or.inl (by decide)⟩, _, _, rfl, rfl, ?_⟩,
      rfl, rfl⟩
    push_cast; ring
  · refine ⟨_, useIx_eq (f := 1e6 * 60) rfl, ⟨"m3", "s", ⟨by decide, by decide, Or.inl (by decide)⟩, _, _, rfl, rfl, ?_⟩,
      rfl, rfl⟩
    push_cast; ring
  · refine ⟨_, useIx_eq (f := 1e3) rfl, ⟨"l", "min", ⟨by decide, by decide, Or.inl (by decide)⟩, _, _, rfl, rfl, ?_⟩,
      rfl, rfl⟩
    push_cast; ring

/-- C102. The three abbreviations without a slash are exact too: a million US gallons a day, litres and cubic
metres per second, in mL/min. -/
theorem c102_short (thru : Bool) (v g : ℝ) :
    (∃ s', sharedFlow thru (.text "use ix") ⟨.item (.num v), .item (.text "mgd"), g⟩ = .ok s' ∧
      s'.gac * (1 / 100) ^ 3 / 60 = v * (1000000 * (231 * (254 / 10000) ^ 3) / 86400)) ∧
    (∃ s', sharedFlow thru (.text "use ix") ⟨.item (.num v), .item (.text "lps"), g⟩ = .ok s' ∧
      s'.gac * (1 / 100) ^ 3 / 60 = v * (1 / 10) ^ 3) ∧
    ∃ s', sharedFlow thru (.text "use ix") ⟨.item (.num v), .item (.text "m3ps"), g⟩ = .ok s' ∧
      s'.gac * (1 / 100) ^ 3 / 60 = v := by
  refine ⟨⟨_, useIx_eq (f := 1e6 * (3.785411784 * 1e3) / (24 * 60)) rfl, ?_⟩, ⟨_, useIx_eq (f := 1e3 * 60) rfl, ?_⟩,
    ⟨_, useIx_eq (f := 1e6 * 60) rfl, ?_⟩⟩
  · simp only; ring
  · simp only; ring
  · simp only; ring

/-- C102. Asking for the carbon's flow changes the resin exactly if the writes reach the table; otherwise the two
vessels keep different flows. -/
theorem c102_gac (s : FlowState) :
    (∃ s', sharedFlow true (.text "use gac") s = .ok s' ∧ s'.ixValue = .item (.num s.gac) ∧
      s'.ixUnits = .item (.text "ml/min") ∧ s'.gac = s.gac) ∧
    sharedFlow false (.text "use gac") s = .ok s := by
  constructor
  · exact ⟨_, rfl, rfl, rfl, rfl⟩
  · rfl

/-! ### C72 -/

/-- C72. The time at which results are read is on the simulated grid. -/
def C72 : Prop := ∀ s : ℕ, 1 ≤ s → 8 * s < llPoints s

theorem llDuration_eq (s : ℕ) : llDuration s = 21 * s / 10 := by
  unfold llDuration
  rw [show (s : ℝ) * 2.1 = ((21 * s : ℕ) : ℝ) / ((10 : ℕ) : ℝ) by push_cast; ring, Nat.floor_div_eq_div]

/-- C72, exactly: intervals of ten days or more. Missing: shorter ones. -/
theorem c72_partial (s : ℕ) : 8 * s < llPoints s ↔ 10 ≤ s := by
  unfold llPoints
  rw [llDuration_eq]
  omega

/-- C72 is false: a weekly swap is read outside the simulation. -/
theorem c72_false : ¬ C72 := fun h => by
  have := (c72_partial 7).1 (h 7 (by norm_num))
  omega

/-- C72. Every shorter interval ends in an error, for both systems, every vessel and number of passes. -/
theorem c72_gac (F : (ℕ → ℝ) → ℕ → ℝ) {s : ℕ} (hs : s < 10) (loops : ℕ) (mean : ℝ) :
    runLLGac F s loops mean = .error .valueError := by
  unfold runLLGac
  have : ¬ 8 * s < llPoints s := fun h => by have := (c72_partial s).1 h; omega
  simp [this]

/-! ### C73, C106: selectivities -/

/-- C73. Early factor in `[lo, hi)`, late factor from `hi` on, untouched below. -/
def C73 : Prop := ∀ (a : SelAdjust) (k : ℝ), a.lo ≤ a.hi →
  (k < a.lo → a.apply k = k) ∧ (a.lo ≤ k → k < a.hi → a.apply k = k * a.early) ∧ (a.hi ≤ k → a.apply k = k * a.late)

/-- C73, what holds: all but the upper threshold itself, which is untouched. Missing: that value. -/
theorem c73_partial (a : SelAdjust) (k : ℝ) (h : a.lo ≤ a.hi) :
    (k < a.lo → a.apply k = k) ∧ (a.lo ≤ k → k < a.hi → a.apply k = k * a.early) ∧
      (a.hi < k → a.apply k = k * a.late) ∧ a.apply a.hi = a.hi := by
  unfold SelAdjust.apply
  refine ⟨fun h1 => ?_, fun h1 h2 => ?_, fun h1 => ?_, ?_⟩
  · rw [if_neg (fun h2 => absurd h2.1 (not_le.2 h1)), if_neg (by linarith)]
  · rw [if_pos ⟨h1, h2⟩]
  · rw [if_neg (fun h2 => by linarith [h2.2]), if_pos h1]
  · rw [if_neg (fun h2 => lt_irrefl _ h2.2), if_neg (lt_irrefl _)]

/-- C73 is false at the upper threshold. -/
theorem c73_false : ¬ C73 := by
  intro h
  have h1 := (h ⟨100, 3500, 1, 2⟩ 3500 (by norm_num)).2.2 le_rfl
  rw [(c73_partial ⟨100, 3500, 1, 2⟩ 3500 (by norm_num)).2.2.2] at h1
  norm_num at h1

/-- The names listed are those of the table. -/
def ResinTable.Ok (t : ResinTable) : Prop := t.avail = t.ions.map (·.name) ∧ t.avail.Nodup

/-- The counterions in the constructor, lead_lag_class.py:231-239, are such a table. -/
example : ResinTable.Ok ⟨["CHLORIDE", "SULFATE"], [⟨"CHLORIDE", 35.45, 1, 1, "meq"⟩, ⟨"SULFATE", 96.06, 0.028, 2, "meq"⟩]⟩ := by
  refine ⟨rfl, by decide⟩

/-- C106. Adding a compound keeps the names unique and the list of names that of the table. -/
theorem c106_names {t : ResinTable} (h : t.Ok) (a : SelAdjust) (mw k : ℝ) (comp : String) : (t.add a mw k comp).Ok := by
  unfold ResinTable.add
  split
  case isTrue hc =>
    refine ⟨by simp [h.1], ?_⟩
    rw [List.nodup_append]
    refine ⟨h.2, List.nodup_singleton _, fun x hx y hy => ?_⟩
    rw [List.mem_singleton] at hy
    subst hy
    exact fun e => hc (e ▸ hx)
  case isFalse hc =>
    refine ⟨?_, h.2⟩
    simp only [List.map_map]
    rw [h.1]
    refine List.map_congr_left fun i _ => ?_
    simp only [Function.comp]
    split <;> rfl

/-- C106. Afterwards the compound is in the table, and every row of that name has the adjusted selectivity. -/
theorem c106_value {t : ResinTable} (h : t.Ok) (a : SelAdjust) (mw k : ℝ) (comp : String) :
    (∃ i ∈ (t.add a mw k comp).ions, i.name = comp) ∧
      ∀ i ∈ (t.add a mw k comp).ions, i.name = comp → i.k = a.apply k := by
  unfold ResinTable.add
  split
  case isTrue hc =>
    refine ⟨⟨⟨comp, mw, a.apply k, 1, "ng"⟩, by simp, rfl⟩, ?_⟩
    intro i hi hn
    simp only [List.mem_append, List.mem_singleton] at hi
    rcases hi with hi | hi
    · exact absurd (by rw [h.1, ← hn]; exact List.mem_map_of_mem hi) hc
    · rw [hi]
  case isFalse hc =>
    have hc : comp ∈ t.avail := not_not.1 hc
    rw [h.1, List.mem_map] at hc
    obtain ⟨i, hi, hn⟩ := hc
    constructor
    · refine ⟨_, List.mem_map_of_mem (f := fun i => if i.name = comp then { i with k := a.apply k * 1 } else i) hi, ?_⟩
      simp [hn]
    · intro j hj hjn
      simp only [List.mem_map] at hj
      obtain ⟨i', -, rfl⟩ := hj
      by_cases e : i'.name = comp
      · simp [e]
      · rw [if_neg e] at hjn
        exact absurd hjn e

/-- C106. Rows of other names keep their order and values, and doing it twice changes nothing more. -/
theorem c106_others {t : ResinTable} (a : SelAdjust) (mw k : ℝ) (comp : String) :
    (t.add a mw k comp).ions.filter (fun i => i.name ≠ comp) = t.ions.filter (fun i => i.name ≠ comp) := by
  unfold ResinTable.add
  split
  · simp [List.filter_append]
  · simp only [List.filter_map]
    have e : ∀ l : List ResinIon, (l.filter ((fun i => decide (i.name ≠ comp)) ∘ fun i : ResinIon =>
        if i.name = comp then { i with k := a.apply k * 1 } else i)) = l.filter (fun i => i.name ≠ comp) := by
      intro l
      refine List.filter_congr fun i _ => ?_
      by_cases hi : i.name = comp <;> simp [hi]
    rw [e]
    conv_rhs => rw [← List.map_id (t.ions.filter fun i => decide (i.name ≠ comp))]
    refine List.map_congr_left fun i hi => ?_
    have : i.name ≠ comp := by simpa using (List.mem_filter.1 hi).2
    simp [this]

theorem c106_twice {t : ResinTable} (h : t.Ok) (a : SelAdjust) (mw k : ℝ) (comp : String) :
    (t.add a mw k comp).add a mw k comp = t.add a mw k comp := by
  have hin : comp ∈ (t.add a mw k comp).avail := by
    obtain ⟨i, hi, hn⟩ := (c106_value h a mw k comp).1
    rw [(c106_names h a mw k comp).1, List.mem_map]
    exact ⟨i, hi, hn⟩
  have hv := (c106_value h a mw k comp).2
  set u := t.add a mw k comp
  conv_lhs => unfold ResinTable.add
  rw [if_neg (not_not.2 hin)]
  have : u.ions.map (fun i => if i.name = comp then { i with k := a.apply k * 1 } else i) = u.ions := by
    conv_rhs => rw [← List.map_id u.ions]
    refine List.map_congr_left fun i hi => ?_
    by_cases hn : i.name = comp
    · rw [if_pos hn, mul_one, ← hv i hi hn]; rfl
    · rw [if_neg hn]; rfl
  rw [this]

/-! ### C103: the chain of vessels -/

namespace Spec

/-- Vessels put in service one after the other. Each is first the lag vessel, fed with the effluent of the vessel
before it, then (from `swap` on) the lead vessel, fed with raw water. Vessel 0 starts as the lead; vessel 1 starts
with it. -/
structure Chain {V : Type} (F : (ℕ → V) → ℕ → V) (lag : ℕ → Prop) [DecidablePred lag] (swap : ℕ) (raw : V)
    (eff : ℕ → ℕ → V) : Prop where
  zero : eff 0 = F fun _ => raw
  one : eff 1 = F fun k => if lag k then eff 0 k else raw
  next : ∀ i, eff (i + 2) = F fun k => if lag k then eff (i + 1) (swap + k) else raw

end Spec

/-- There is always such a chain. -/
theorem chain_exists {V : Type} (F : (ℕ → V) → ℕ → V) (lag : ℕ → Prop) [DecidablePred lag] (swap : ℕ) (raw : V) :
    ∃ eff, Spec.Chain F lag swap raw eff := by
  let e1 := F fun k => if lag k then (F fun _ => raw) k else raw
  let step := fun e : ℕ → V => F fun k => if lag k then e (swap + k) else raw
  refine ⟨fun i => if i = 0 then F fun _ => raw else step^[i - 1] e1, ⟨rfl, rfl, fun i => ?_⟩⟩
  have : i + 2 - 1 = (i + 1 - 1) + 1 := by omega
  simp only [this, Function.iterate_succ_apply', if_neg (Nat.succ_ne_zero _)]
  rfl

theorem gacPass_chain {F : (ℕ → ℝ) → ℕ → ℝ} {s : ℕ} {mean : ℝ} {eff : ℕ → ℕ → ℝ}
    (h : Spec.Chain F (fun k => k < 4 * s) (4 * s) mean eff) (i : ℕ) : gacPass F s mean i = eff (i + 1) := by
  induction i with
  | zero =>
    rw [h.one, h.zero]
    rfl
  | succ i ih =>
    rw [h.next, ← ih]
    rfl

/-- C103. Carbon: the curves reported are those of vessel `loops + 1` as the lag (effluent) and then as the lead (mid),
for every vessel model, swap interval of at least ten days and number of passes. -/
theorem c103_gac {F : (ℕ → ℝ) → ℕ → ℝ} {s loops : ℕ} {mean : ℝ} {eff : ℕ → ℕ → ℝ} (hs : 10 ≤ s)
    (h : Spec.Chain F (fun k => k < 4 * s) (4 * s) mean eff) :
    ∃ o, runLLGac F s loops mean = .ok o ∧ o.effluent = eff (loops + 1) (4 * s) ∧ o.mid = eff (loops + 1) (8 * s) ∧
      o.effluentResults = (List.range (4 * s)).map (eff (loops + 1)) ∧
      o.midResults = (List.range (4 * s)).map fun k => eff (loops + 1) (4 * s + k) := by
  unfold runLLGac
  simp only [if_pos ((c72_partial s).2 hs), gacPass_chain h]
  exact ⟨_, rfl, rfl, rfl, rfl, rfl⟩

theorem filter_range (n lo hi : ℕ) :
    (List.range n).filter (fun k => lo ≤ k ∧ k ≤ hi) = (List.range (min n (hi + 1) - lo)).map (fun k => lo + k) := by
  induction n with
  | zero => simp
  | succ n ih =>
    rw [List.range_succ, List.filter_append, ih]
    by_cases h : lo ≤ n ∧ n ≤ hi
    · have e1 : min (n + 1) (hi + 1) - lo = (n - lo) + 1 := by omega
      have e2 : min n (hi + 1) - lo = n - lo := by omega
      rw [e1, e2, List.range_succ, List.map_append]
      have e3 : lo + (n - lo) = n := by omega
      simp [h, e3]
    · have e : min (n + 1) (hi + 1) - lo = min n (hi + 1) - lo := by omega
      rw [e]
      simp only [List.filter_cons, decide_eq_true_eq, h, List.filter_nil, if_false, List.append_nil]

theorem rowsIn_eq {V : Type} {n lo hi : ℕ} (h : hi < n) (res : ℕ → V) :
    rowsIn n lo hi res = (List.range (hi + 1 - lo)).map fun k => res (lo + k) := by
  unfold rowsIn
  rw [filter_range, List.map_map, show min n (hi + 1) = hi + 1 by omega]
  rfl

theorem ixFeed_ok {V : Type} {s : ℕ} (hs : 10 ≤ s) (i : ℕ) (raw : V) (res : ℕ → V) :
    ixFeed s i raw res =
      .ok fun k => if k ≤ 4 * s then (if i = 0 then res k else res (4 * s + k)) else raw := by
  have h8 := (c72_partial s).2 hs
  unfold ixFeed
  simp only
  rw [rowsIn_eq (by omega : 4 * s < llPoints s), rowsIn_eq h8]
  have e : 8 * s + 1 - 4 * s = 4 * s + 1 := by omega
  rw [e, Nat.sub_zero]
  rw [if_pos (by split <;> simp)]
  congr 1
  funext k
  by_cases hk : k ≤ 4 * s
  · rw [if_pos hk, if_pos hk]
    by_cases hi : i = 0
    · simp [hi, List.getD, Nat.lt_succ_of_le hk]
    · simp [hi, List.getD, Nat.lt_succ_of_le hk]
  · rw [if_neg hk, if_neg hk]

theorem ixPasses_chain {V : Type} {F : (ℕ → V) → ℕ → V} {s : ℕ} (hs : 10 ≤ s) {raw : V} {eff : ℕ → ℕ → V}
    (h : Spec.Chain F (fun k => k ≤ 4 * s) (4 * s) raw eff) (m i : ℕ) (cin : ℕ → V) :
    ∃ cin', ixPasses F s raw i m cin (eff i) = .ok (cin', eff (i + m)) ∧ (0 < m → F cin' = eff (i + m)) := by
  induction m generalizing i cin with
  | zero => exact ⟨cin, rfl, fun h => absurd h (lt_irrefl 0)⟩
  | succ m ih =>
    unfold ixPasses
    rw [ixFeed_ok hs]
    simp only
    have e : F (fun k => if k ≤ 4 * s then (if i = 0 then eff i k else eff i (4 * s + k)) else raw) = eff (i + 1) := by
      cases i with
      | zero => rw [Nat.zero_add, h.one]; simp
      | succ i => rw [h.next]; simp
    rw [e]
    obtain ⟨c, h1, h2⟩ := ih (i + 1) (fun k => if k ≤ 4 * s then (if i = 0 then eff i k else eff i (4 * s + k)) else raw)
    refine ⟨c, by rw [h1]; congr 3; omega, fun _ => ?_⟩
    rcases Nat.eq_zero_or_pos m with rfl | hm
    · unfold ixPasses at h1
      simp only [Except.ok.injEq, Prod.mk.injEq] at h1
      rw [← h1.1]
      exact e
    · rw [h2 hm]; congr 1; omega

/-- C103. Resin: the same for all ions at once; the lag phase includes the moment of the swap. -/
theorem c103_ix {V : Type} {F : (ℕ → V) → ℕ → V} {s loops : ℕ} {raw : V} {eff : ℕ → ℕ → V} (hs : 10 ≤ s)
    (h : Spec.Chain F (fun k => k ≤ 4 * s) (4 * s) raw eff) :
    ∃ o cin, runLLIx F s loops raw = .ok (o, cin) ∧ o.effluent = eff (loops + 1) (4 * s) ∧
      o.mid = eff (loops + 1) (8 * s) ∧ o.effluentResults = (List.range (4 * s + 1)).map (eff (loops + 1)) ∧
      o.midResults = (List.range (4 * s + 1)).map fun k => eff (loops + 1) (4 * s + k) := by
  have h8 := (c72_partial s).2 hs
  obtain ⟨cin, h1, -⟩ := ixPasses_chain hs h (loops + 1) 0 (fun _ => raw)
  unfold runLLIx
  rw [← h.zero, h1]
  simp only [if_pos h8, Nat.zero_add]
  refine ⟨_, _, rfl, rfl, rfl, ?_, ?_⟩
  · rw [rowsIn_eq (by omega : 4 * s < llPoints s)]; simp
  · rw [rowsIn_eq h8, show 8 * s + 1 - 4 * s = 4 * s + 1 by omega]

/-- C72. For the resin a shorter interval is an error as well. -/
theorem c72_ix {V : Type} (F : (ℕ → V) → ℕ → V) {s : ℕ} (hs : s < 10) (loops : ℕ) (raw : V) :
    ∃ e, runLLIx F s loops raw = .error e := by
  unfold runLLIx
  have : ¬ 8 * s < llPoints s := fun h => by have := (c72_partial s).1 h; omega
  split
  · exact ⟨_, rfl⟩
  · rw [if_neg this]; exact ⟨_, rfl⟩

/-- C103. At the steady state the reported effluent curve is the response of a fresh vessel to the reported mid curve
followed by raw water. -/
theorem c103_steady {F : (ℕ → ℝ) → ℕ → ℝ} {s loops : ℕ} {mean : ℝ} {eff : ℕ → ℕ → ℝ} (hs : 10 ≤ s)
    (h : Spec.Chain F (fun k => k < 4 * s) (4 * s) mean eff) (hst : eff (loops + 2) = eff (loops + 1)) :
    ∃ o, runLLGac F s loops mean = .ok o ∧
      o.effluentResults = (List.range (4 * s)).map (F fun k => o.midResults.getD k mean) := by
  obtain ⟨o, h1, -, -, h2, h3⟩ := c103_gac (loops := loops) hs h
  refine ⟨o, h1, ?_⟩
  have hn := h.next loops
  rw [hst] at hn
  rw [h2, h3]
  congr 1
  rw [show F (fun k => ((List.range (4 * s)).map fun k => eff (loops + 1) (4 * s + k)).getD k mean) =
    F fun k => if k < 4 * s then eff (loops + 1) (4 * s + k) else mean from ?_]
  · exact hn
  congr 1
  funext k
  by_cases hk : k < 4 * s
  · simp [hk, List.getD]
  · simp [hk, List.getD]

/-- A vessel that halves what enters: vessel 2 halves the halved feed. -/
example : runLLGac (fun x k => x k / 2) 10 1 8 =
    .ok ⟨4, List.replicate 40 4, 4, List.replicate 40 2⟩ := by
  obtain ⟨eff, h⟩ := chain_exists (fun (x : ℕ → ℝ) k => x k / 2) (fun k => k < 4 * 10) (4 * 10) 8
  have e0 : ∀ k, eff 0 k = 4 := fun k => by rw [h.zero]; norm_num
  have e1 : ∀ k, eff 1 k = if k < 40 then 2 else 4 := fun k => by
    rw [h.one]; simp only [e0]
    by_cases hk : k < 4 * 10
    · rw [if_pos hk, if_pos (by omega)]; norm_num
    · rw [if_neg hk, if_neg (by omega)]; norm_num
  have e2 : ∀ k, eff 2 k = if k < 40 then 2 else 4 := fun k => by
    rw [h.next]; simp only [e1]
    by_cases hk : k < 4 * 10
    · rw [if_pos hk, if_neg (by omega), if_pos (by omega)]; norm_num
    · rw [if_neg hk, if_neg (by omega)]; norm_num
  obtain ⟨o, h1, h2, h3, h4, h5⟩ := c103_gac (loops := 1) (by norm_num) h
  rw [h1]
  congr 1
  obtain ⟨a, b, c, d⟩ := o
  simp only [e2] at h2 h3 h4 h5
  simp only [LLOut.mk.injEq]
  refine ⟨by rw [h3]; norm_num, ?_, by rw [h2]; norm_num, ?_⟩
  · rw [h5, List.eq_replicate_iff]
    refine ⟨by simp, fun x hx => ?_⟩
    simp only [List.mem_map, List.mem_range] at hx
    obtain ⟨k, hk, rfl⟩ := hx
    rw [if_neg (by omega)]
  · rw [h4, List.eq_replicate_iff]
    refine ⟨by simp, fun x hx => ?_⟩
    simp only [List.mem_map, List.mem_range] at hx
    obtain ⟨k, hk, rfl⟩ := hx
    rw [e2, if_pos (by omega)]

/-! ### C104: the lag vessel of a mixed system -/

/-- C104. The lag vessel of a carbon-resin system is fed, for every shared compound, with the carbon effluent
(traces in place of zeros and negative values). -/
def C104 : Prop := ∀ (asked shared : List String) (gacEff : String → ℕ → ℝ) (comp : String),
  comp ∈ asked ++ shared → ∀ k, 0 < gacEff comp k → lagIx asked gacEff comp k = gacEff comp k

/-- C104 is false: a shared compound that was not asked for is not simulated in the lead vessel, and the lag vessel
gets none of it. -/
theorem c104_false : ¬ C104 := by
  intro h
  have h1 := h ["PFOA"] ["PFOA", "PFBA"] (fun _ _ => 5) "PFBA" (by decide) 0 (by norm_num)
  have h2 : lagIx ["PFOA"] (fun _ _ => 5) "PFBA" 0 = 1e-16 := by
    have : "PFBA" ∉ ["PFOA"] := by decide
    simp [lagIx, floorPos, this]
  rw [h2] at h1
  norm_num at h1

/-- C104, what holds: it is so for the compounds asked for, always positive, and in the other order for all of them
above `1e-8`. Missing: shared compounds that were not asked for. -/
theorem c104_partial (asked : List String) (eff : String → ℕ → ℝ) (comp : String) (k : ℕ) :
    (comp ∈ asked → 0 < eff comp k → lagIx asked eff comp k = eff comp k) ∧
      (comp ∈ asked → eff comp k ≤ 0 → lagIx asked eff comp k = 1e-16) ∧
      (comp ∉ asked → lagIx asked eff comp k = 1e-16) ∧
      0 < lagIx asked eff comp k ∧
      (1e-8 ≤ eff comp k → lagGac eff comp k = eff comp k) ∧ (eff comp k ≤ 1e-8 → lagGac eff comp k = 1e-8) := by
  unfold lagIx lagGac floorPos
  refine ⟨fun h1 h2 => ?_, fun h1 h2 => ?_, fun h1 => ?_, ?_, fun h1 => ?_, fun h1 => ?_⟩
  · rw [if_pos h1, if_neg (not_le.2 h2)]
  · rw [if_pos h1, if_pos h2]
  · rw [if_neg h1, if_pos le_rfl]
  · by_cases h : (if comp ∈ asked then eff comp k else 0) ≤ 0
    · rw [if_pos h]; norm_num
    · rw [if_neg h]; exact not_le.1 h
  · split
    · rename_i h; exact le_antisymm h1 h
    · rfl
  · rw [if_pos h1]

/-! ### C105: what a run leaves behind -/

/-- C105. The influent a resin-carbon run starts from is the same whether or not a resin-resin run came before. -/
def C105 : Prop := ∀ (F : (ℕ → ℝ) → ℕ → ℝ) (s loops : ℕ) (raw : ℝ) (o : LLOut ℝ) (cin : ℕ → ℝ), 0 < raw →
  runLLIx F s loops raw = .ok (o, cin) → leadIxMean (llPoints s) cin = leadIxMean (llPoints s) fun _ => raw

/-- C105, what holds: the influent left behind is that of the last pass, so its later part is still raw water and a
second resin-resin run, which starts from its own copy, is not affected. Missing: the first part. -/
theorem c105_partial {V : Type} {F : (ℕ → V) → ℕ → V} {s loops : ℕ} (hs : 10 ≤ s) {raw : V} {eff : ℕ → ℕ → V}
    (h : Spec.Chain F (fun k => k ≤ 4 * s) (4 * s) raw eff) {o : LLOut V} {cin : ℕ → V}
    (hr : runLLIx F s loops raw = .ok (o, cin)) : F cin = eff (loops + 1) := by
  obtain ⟨c, h1, h2⟩ := ixPasses_chain hs h (loops + 1) 0 (fun _ => raw)
  unfold runLLIx at hr
  rw [← h.zero, h1] at hr
  simp only [if_pos ((c72_partial s).2 hs), Except.ok.injEq, Prod.mk.injEq] at hr
  rw [← hr.2, h2 (by omega), Nat.zero_add]

/-- C105. The mean a resin-carbon run starts from is that of the rows it holds: constant water gives itself. -/
theorem c105_mean {n : ℕ} (hn : 0 < n) {raw : ℝ} (hr : 0 < raw) : leadIxMean n (fun _ => raw) = raw := by
  unfold leadIxMean floorPos
  have : (n : ℝ) ≠ 0 := by positivity
  rw [Finset.sum_const, Finset.card_range, nsmul_eq_mul, mul_div_cancel_left₀ _ this]
  simp [not_le.2 hr]

/-- C105 is false: after a run of a resin that removes everything the mean influent is nearly halved. -/
theorem c105_false : ¬ C105 := by
  intro h
  have h1 : runLLIx (fun (_ : ℕ → ℝ) _ => (0 : ℝ)) 10 0 1 =
      .ok (⟨0, rowsIn (llPoints 10) 40 80 fun _ => 0, 0, rowsIn (llPoints 10) 0 40 fun _ => 0⟩,
        fun k => if k ≤ 40 then 0 else 1) := by
    unfold runLLIx ixPasses ixPasses
    rw [ixFeed_ok (by norm_num)]
    simp only [if_pos ((c72_partial 10).2 le_rfl)]
    norm_num
  have h2 := h _ _ _ _ _ _ (by norm_num) h1
  have e : llPoints 10 = 84 := by unfold llPoints; rw [llDuration_eq]
  rw [e] at h2
  unfold leadIxMean floorPos at h2
  norm_num [Finset.sum_range_succ] at h2

end WTM
