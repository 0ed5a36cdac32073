import Mathlib.Tactic
import Verif.Model.LeadLagInit
import Verif.Spec.Units

/-! C186-C190: making a lead-lag object, its resin inputs and the compounds of mixed systems. -/
set_option autoImplicit false
namespace WTM

theorem lookup_setParam (n m : String) (f : ℝ × String → ℝ × String) : ∀ l : List (String × ℝ × String),
    (setParam n f l).lookup m = if m = n then (l.lookup n).map f else l.lookup m
  | [] => by simp [setParam]
  | r :: l => by
    obtain ⟨a, r⟩ := r
    unfold setParam
    by_cases h : a = n
    · subst h
      rw [if_pos rfl]
      by_cases hm : m = a
      · subst hm; simp [List.lookup]
      · have : (m == a) = false := by simpa using hm
        simp only [List.lookup_cons, this, if_neg hm]
    · have hn : (n == a) = false := by simpa using fun e : n = a => h e.symm
      rw [if_neg h]
      by_cases hm : m = a
      · subst hm
        simp only [List.lookup_cons, beq_self_eq_true, if_neg h]
      · have : (m == a) = false := by simpa using hm
        simp only [List.lookup_cons, this, hn, lookup_setParam n m f l]

theorem setParam_names (n : String) (f : ℝ × String → ℝ × String) : ∀ l : List (String × ℝ × String),
    (setParam n f l).map Prod.fst = l.map Prod.fst
  | [] => rfl
  | r :: l => by
    unfold setParam
    split
    · rename_i h; simp [h]
    · simp [setParam_names n f l]

theorem llParams_time {a : LLArgs} {b : ResinBook} {p : List (String × ℝ × String)} (hp : b.params = some p) :
    ∃ p', (llParams a b).1 = some p' ∧ p'.lookup "time" = p.lookup "time" := by
  unfold llParams
  rw [hp]
  simp only
  split
  · exact ⟨_, rfl, by rw [lookup_setParam, if_neg (by decide), lookup_setParam, if_neg (by decide)]⟩
  · exact ⟨_, rfl, rfl⟩

/-! ### C186, C187: the error flag -/

/-- The inputs a lead-lag object needs: properties of the compounds, raw data as a table, isotherms if there is carbon. -/
structure Spec.LLUsable (a : LLArgs) : Prop where
  props : a.props = .table ∨ a.props = .other ∨ a.propsFile = true
  raw : ∃ cols, a.raw = some cols
  iso : hasGac (lowerStr a.config).toList = true → a.kData = .table

/-- C186. A lead-lag object that reports no error got the inputs it needs. -/
def C186 : Prop := ∀ (a : LLArgs) (o : LLInit), llInit a = .ok o → o.error = false → Spec.LLUsable a

theorem llRaw_none {a : LLArgs} (h : llErrK a = true) : llRaw a = .ok none := by
  unfold llRaw
  rw [if_pos h]

theorem llErrK_usable {a : LLArgs} (hp : a.props ≠ .text) (h : llErrK a = false) : Spec.LLUsable a := by
  unfold llErrK at h
  rw [Bool.or_eq_false_iff] at h
  obtain ⟨h1, h2⟩ := h
  unfold llCompounds at h1
  cases hr : a.raw with
  | none => rw [hr] at h1; cases h1
  | some cols =>
    rw [hr] at h1
    cases he : llErrProps a with
    | true => rw [he] at h1; cases h1
    | false =>
      refine ⟨?_, ⟨cols, hr⟩, fun hg => ?_⟩
      · unfold llErrProps at he
        cases hq : a.props with
        | missing =>
          rw [hq] at he
          right; right
          simpa using he
        | text => exact absurd hq hp
        | table => left; rfl
        | other => right; left; rfl
      · rw [hg] at h2
        simpa using h2

theorem llInit_nobook {a : LLArgs} {o : LLInit} (hb : a.book = none) (h : llInit a = .ok o) : llErrK a = false ∧ o.error = false := by
  unfold llInit at h
  rw [hb] at h
  cases he : llErrK a with
  | true =>
    rw [llRaw_none he] at h
    simp only at h
    split at h <;> cases h
  | false =>
    refine ⟨rfl, ?_⟩
    split at h
    · cases h
    · simp only at h
      split at h
      · cases h
      · split at h
        · cases h
        · simp only [Except.ok.injEq] at h
          rw [← h]
          exact he

/-- C186, as far as it holds: without a resin workbook, `properties` not a text. Missing: with a workbook, whose influent sheet resets the
flag (`c186_reset`); a text given as `properties`. -/
theorem c186_partial {a : LLArgs} {o : LLInit} (hb : a.book = none) (hp : a.props ≠ .text) (h : llInit a = .ok o) : Spec.LLUsable a :=
  llErrK_usable hp (llInit_nobook hb h).1

theorem llAvail_ions (a : LLArgs) : ∀ (sel avail l : List String), llAvail a sel avail = .ok l →
    avail <+: l ∧ (avail.Nodup → l.Nodup) ∧ ∀ c, c ∈ l ↔ c ∈ avail ∨ c ∈ sel ∧ c ∈ (llCompounds a).1.getD []
  | [], avail, l, h => by
    unfold llAvail at h
    cases h
    simp
  | c :: rest, avail, l, h => by
    unfold llAvail at h
    by_cases hc : c ∈ ((llCompounds a).1.getD []) ∧ c ∉ avail
    · rw [if_pos hc] at h
      split at h
      · cases h
      · split at h
        · obtain ⟨h1, h2, h3⟩ := llAvail_ions a rest _ l h
          refine ⟨(List.prefix_append _ _).trans h1, fun hn => h2 ?_, fun d => ?_⟩
          · rw [List.nodup_append]
            refine ⟨hn, List.nodup_singleton c, fun x hx y hy => ?_⟩
            rw [List.mem_singleton.1 hy]
            rintro rfl
            exact hc.2 hx
          · rw [h3, List.mem_append, List.mem_singleton, List.mem_cons]
            constructor
            · rintro ((h | rfl) | h)
              · exact Or.inl h
              · exact Or.inr ⟨Or.inl rfl, hc.1⟩
              · exact Or.inr ⟨Or.inr h.1, h.2⟩
            · rintro (h | ⟨rfl | h, h'⟩)
              · exact Or.inl (Or.inl h)
              · exact Or.inl (Or.inr rfl)
              · exact Or.inr ⟨h, h'⟩
        · cases h
    · rw [if_neg hc] at h
      obtain ⟨h1, h2, h3⟩ := llAvail_ions a rest _ l h
      refine ⟨h1, h2, fun d => ?_⟩
      rw [h3, List.mem_cons]
      constructor
      · rintro (h | h)
        · exact Or.inl h
        · exact Or.inr ⟨Or.inr h.1, h.2⟩
      · rintro (h | ⟨rfl | h, h'⟩)
        · exact Or.inl h
        · by_cases hd : d ∈ avail
          · exact Or.inl hd
          · exact absurd ⟨h', hd⟩ hc
        · exact Or.inr ⟨h, h'⟩

/-- C186. Without a workbook the ions of an object are the counter ions, in their order, and the compounds that have a selectivity; no
compound twice. -/
theorem c186_ions {a : LLArgs} {o : LLInit} (hb : a.book = none) (h : llInit a = .ok o) :
    a.counter <+: o.avail ∧ (a.counter.Nodup → o.avail.Nodup) ∧
    ∀ c, c ∈ o.avail ↔ c ∈ a.counter ∨ c ∈ a.select ∧ ∃ l, o.compounds = some l ∧ c ∈ l := by
  unfold llInit at h
  rw [hb] at h
  split at h
  · cases h
  · simp only at h
    split at h
    · cases h
    · rename_i av hav
      split at h
      · cases h
      · simp only [Except.ok.injEq] at h
        subst h
        obtain ⟨h1, h2, h3⟩ := llAvail_ions a _ _ _ hav
        refine ⟨h1, h2, fun c => ?_⟩
        rw [h3]
        have : c ∈ (llCompounds a).1.getD [] ↔ ∃ l, (llCompounds a).1 = some l ∧ c ∈ l := by
          cases (llCompounds a).1 <;> simp
        rw [this]

/-- C186. A text given as `properties` that names no file is found out only when a compound with a selectivity is looked up in it. -/
theorem c186_text {a : LLArgs} {l : List String} {c : String} (hb : a.book = none) (hp : a.props = .text) (hf : a.propsFile = false)
    (hl : (llCompounds a).1 = some l) (hc : c ∈ l) (hs : c ∈ a.select) (hn : c ∉ a.counter) : ∃ e, llInit a = .error e := by
  have hav : ∀ (sel avail : List String), c ∈ sel → c ∉ avail → llAvail a sel avail = .error .typeError := by
    intro sel
    induction sel with
    | nil => intro _ h; cases h
    | cons d rest ih =>
      intro avail h1 h2
      unfold llAvail
      by_cases hd : d ∈ ((llCompounds a).1.getD []) ∧ d ∉ avail
      · rw [if_pos hd]
        simp [llPropsTable, hp, hf]
      · rw [if_neg hd]
        rcases List.mem_cons.1 h1 with rfl | h1
        · exact absurd ⟨by rw [hl]; exact hc, h2⟩ hd
        · exact ih avail h1 h2
  unfold llInit
  rw [hb]
  split
  · exact ⟨_, rfl⟩
  · simp only [hav _ _ hs hn]
    exact ⟨_, rfl⟩

/-- C186. With a workbook the flag is what reading its influent sheet makes it, whatever was missing before. -/
theorem c186_reset {a : LLArgs} {b : ResinBook} {p : List (String × ℝ × String)} {q : ℝ × String} {cin : List String × List ℝ}
    {ions : List String} (hb : a.book = some b) (hp : b.params = some p) (hq : p.lookup "time" = some q) (hc : b.cin = some cin)
    (hi : b.ions = some ions) (he : llErrK a = true) : ∃ o, llInit a = .ok o ∧ o.error = false := by
  obtain ⟨cols, t⟩ := cin
  obtain ⟨p', h1, h2⟩ := llParams_time (a := a) hp
  rw [hq] at h2
  unfold llInit
  rw [llRaw_none he]
  simp only [hb, hi, h1]
  refine ⟨_, rfl, ?_⟩
  unfold llCin
  rw [hc]
  simp only [h2]
  split <;> rfl

/-- Keywords of a carbon and resin system with a workbook and no raw data. -/
noncomputable def demoLL (raw : Option (List (String × String))) (book : Option ResinBook) : LLArgs where
  config := "gac-ix"
  props := .table
  propsFile := false
  hasProp := fun c => c = "PFOA"
  raw := raw
  compounds := none
  kData := .table
  column := .series "influent"
  counter := ["CHLORIDE"]
  select := ["PFOA", "PFOS"]
  nr := 8
  nz := 12
  book := book

/-- A workbook with times in `u`. -/
noncomputable def demoBook (u : String) : ResinBook where
  params := some [("nr", 7, ""), ("nz", 13, ""), ("time", 1, u)]
  cin := some (["Time", "CHLORIDE", "PFOA"], [0, 48])
  ions := some ["CHLORIDE", "PFOA"]

/-- The raw data of `demoLL`. -/
def demoRaw : List (String × String) := [("influent", "PFOA"), ("F400", "PFOA")]

theorem demo_gac : hasGac (lowerStr "gac-ix").toList = true := by decide

/-- Hypotheses of `c186_text`: PFOA is a compound, has a selectivity and is no counter ion. -/
example : let a : LLArgs := { demoLL (some demoRaw) none with props := .text, compounds := some ["PFOA"] }
    (llCompounds a).1 = some ["PFOA"] ∧ "PFOA" ∈ a.select ∧ "PFOA" ∉ a.counter := by
  refine ⟨?_, ?_, ?_⟩
  · simp [llCompounds, demoLL, demoRaw, llErrProps]
  · simp [demoLL]
  · simp [demoLL]

/-- C186 is false: a workbook and no raw data. -/
theorem c186_false : ¬ C186 := by
  intro H
  have he : llErrK (demoLL none (some (demoBook "day"))) = true := rfl
  obtain ⟨-, ⟨cols, h⟩, -⟩ := H (demoLL none (some (demoBook "day")))
    ⟨false, none, ["CHLORIDE", "PFOA"], .flat ["Time", "CHLORIDE", "PFOA"], .flat ["name", "value", "units"],
      .flat ["name", "mw", "KxA", "valence", "units"], [("nr", 8, ""), ("nz", 12, ""), ("time", 1, "day")], [0, 48]⟩ (by
        unfold llInit
        rw [llRaw_none he]
        simp [demoLL, demoBook, llParams, llCin, setParam, List.lookup, llCompounds]) rfl
  cases h

theorem demo_err : llErrK (demoLL (some demoRaw) none) = false := by
  unfold llErrK
  have : (llCompounds (demoLL (some demoRaw) none)).2 = false := by
    simp [llCompounds, demoLL, demoRaw, llErrProps]
  rw [this]
  simp [demoLL]

/-- Without a workbook and with raw data `demoLL` makes an object: hypotheses of `c186_partial` and `c188_never`. -/
theorem demo_init : ∃ o, llInit (demoLL (some demoRaw) none) = .ok o := by
  have h1 : llRaw (demoLL (some demoRaw) none) = .ok (some (.flat ["PFOA", "Time"])) := by
    unfold llRaw
    rw [if_neg (by rw [demo_err]; decide)]
    simp [demoLL, demoRaw]
  have h2 : llAvail (demoLL (some demoRaw) none) ["PFOA", "PFOS"] ["CHLORIDE"] = .ok ["CHLORIDE", "PFOA"] := by
    simp [demoLL, demoRaw, llAvail, llCompounds, llErrProps, llPropsTable]
  unfold llInit
  rw [h1]
  simp only [show (demoLL (some demoRaw) none).book = none from rfl, show (demoLL (some demoRaw) none).select = ["PFOA", "PFOS"] from rfl,
    show (demoLL (some demoRaw) none).counter = ["CHLORIDE"] from rfl, h2]
  exact ⟨_, rfl⟩

/-- C187. A missing input is reported by the flag of the object. -/
def C187 : Prop := ∀ a : LLArgs, ¬ Spec.LLUsable a → ∃ o, llInit a = .ok o ∧ o.error = true

/-- C187. Without a workbook a missing input is never reported by the flag: no object is made. -/
theorem c187_raises {a : LLArgs} (hb : a.book = none) (he : llErrK a = true) : ∃ e, llInit a = .error e := by
  cases h : llInit a with
  | error e => exact ⟨e, rfl⟩
  | ok o =>
    have := (llInit_nobook hb h).1
    rw [he] at this
    cases this

/-- C187, as far as it holds: a workbook with ions in which the parameters, their row `time` or the influent are missing. Missing: no
workbook (`c187_raises`), a workbook without ions, a good workbook (`c186_reset`). -/
theorem c187_partial {a : LLArgs} {b : ResinBook} {ions : List String} (hb : a.book = some b) (hi : b.ions = some ions)
    (he : llErrK a = true) (hm : b.params = none ∨ b.cin = none ∨ ∃ p, b.params = some p ∧ p.lookup "time" = none) :
    ∃ o, llInit a = .ok o ∧ o.error = true := by
  unfold llInit
  rw [llRaw_none he]
  simp only [hb, hi]
  refine ⟨_, rfl, ?_⟩
  simp only
  rcases hm with h | h | ⟨p, h, h'⟩
  · have : (llParams a b).1 = none := by unfold llParams; rw [h]
    rw [this]
    unfold llCin
    cases b.cin <;> rfl
  · unfold llCin
    rw [h]
  · obtain ⟨p', h1, h2⟩ := llParams_time (a := a) h
    rw [h'] at h2
    rw [h1]
    unfold llCin
    cases b.cin with
    | none => rfl
    | some c => simp only [h2]

/-- C187 is false: no workbook, no raw data. -/
theorem c187_false : ¬ C187 := by
  intro H
  obtain ⟨o, h, -⟩ := H (demoLL none none) (fun h => by obtain ⟨cols, h⟩ := h.raw; cases h)
  obtain ⟨e, h'⟩ := c187_raises (a := demoLL none none) rfl rfl
  rw [h'] at h
  cases h

/-- Hypotheses of `c187_partial`: no raw data, a workbook without influent. -/
example : (demoLL none (some { demoBook "day" with cin := none })).book = some { demoBook "day" with cin := none } ∧
    llErrK (demoLL none (some { demoBook "day" with cin := none })) = true ∧ ({ demoBook "day" with cin := none } : ResinBook).cin = none :=
  ⟨rfl, rfl, rfl⟩

/-! ### C188: the vessels can be built -/

/-- C188. An object without error can hand its inputs to the models: the resin sheets can be written and the column is one the carbon
model takes. -/
def C188 : Prop := ∀ (a : LLArgs) (o : LLInit), llInit a = .ok o → o.error = false →
  ioData o.sheets = .ok () ∧ ∃ i, llColumn a.column = .ok i

/-- C188. Without a workbook the resin sheets can never be written. -/
theorem c188_never {a : LLArgs} {o : LLInit} (hb : a.book = none) (h : llInit a = .ok o) : ∃ e, ioData o.sheets = .error e := by
  unfold llInit at h
  rw [hb] at h
  split at h
  · cases h
  · simp only at h
    split at h
    · cases h
    · split at h
      · cases h
      · rename_i cin _
        simp only [Except.ok.injEq] at h
        subst h
        cases cin with
        | flat cols => exact ⟨.attributeError, rfl⟩
        | nested => exact ⟨.typeError, rfl⟩
        | rows => exact ⟨.attributeError, rfl⟩

/-- C188. A column given as a table, as by default, is never taken by the carbon model. -/
theorem c188_column (l : List String) : llColumn (.frame l) = .error .keyError := rfl

/-- C188, as far as it holds: with a workbook and a column given as one. Missing: no workbook (`c188_never`), a table of columns, the
default (`c188_column`). -/
theorem c188_partial {a : LLArgs} {o : LLInit} {b : ResinBook} {i : String} (hb : a.book = some b) (hc : a.column = .series i)
    (h : llInit a = .ok o) (he : o.error = false) : ioData o.sheets = .ok () ∧ llColumn a.column = .ok i := by
  refine ⟨?_, by rw [hc]; rfl⟩
  unfold llInit at h
  rw [hb] at h
  split at h
  · cases h
  · simp only at h
    split at h
    · cases h
    · simp only [Except.ok.injEq] at h
      subst h
      simp only [LLInit.sheets] at he ⊢
      generalize (llParams a b).1 = p at he ⊢
      unfold llCin at he ⊢
      cases hcin : b.cin with
      | none => rw [hcin] at he; cases he
      | some ct =>
        rw [hcin] at he
        obtain ⟨cols, t⟩ := ct
        cases p with
        | none => cases he
        | some rows =>
          simp only at he ⊢
          cases hq : rows.lookup "time" with
          | none => rw [hq] at he; cases he
          | some q =>
            simp only
            by_cases hr : q.2 = "hr"
            · simp [hr, ioData]
            · simp [hr, ioData]

/-- C188 is false: no workbook. -/
theorem c188_false : ¬ C188 := by
  intro H
  obtain ⟨o, h⟩ := demo_init
  obtain ⟨h1, -⟩ := H _ o h (llInit_nobook rfl h).2
  obtain ⟨e, h2⟩ := c188_never rfl h
  rw [h1] at h2
  cases h2

/-- Hypotheses of `c188_partial`: raw data and a workbook. -/
example : ∃ o, llInit (demoLL none (some (demoBook "hr"))) = .ok o ∧ o.error = false := by
  have he : llErrK (demoLL none (some (demoBook "hr"))) = true := rfl
  unfold llInit
  rw [llRaw_none he]
  refine ⟨_, rfl, ?_⟩
  simp [demoLL, demoBook, llParams, llCin, setParam, List.lookup]

/-! ### C189: compounds of the mixed runners -/

/-- C189. A mixed runner simulates in the carbon vessel those of the compounds asked for that both data sets have. -/
def C189 : Prop := ∀ (asked raw rawEff cin ions k : List String) (c : String),
  (∀ out, gacIxComps asked raw rawEff cin k = .ok out → (c ∈ out ↔ c ∈ asked ∧ c ∈ raw ∧ c ∈ cin)) ∧
  (∀ out, ixGacComps asked raw cin ions k = .ok out → (c ∈ out ↔ c ∈ asked ∧ c ∈ raw ∧ c ∈ cin))

theorem mem_useComps {asked raw cin : List String} {c : String} : c ∈ useComps asked raw cin ↔ c ∈ asked ∨ c ∈ raw ∧ c ∈ cin := by
  simp [useComps, sharedComps]

/-- C189, as far as it holds: if the data sets have just the compounds asked for in common, both runners simulate these; what is returned in
general is in `c189_simulated`. Missing: other compounds in common or asked for. -/
theorem c189_partial {asked raw rawEff cin ions k : List String} {c : String} (hs : ∀ d, d ∈ asked ↔ d ∈ raw ∧ d ∈ cin) :
    (∀ out, gacIxComps asked raw rawEff cin k = .ok out → (c ∈ out ↔ c ∈ asked ∧ c ∈ raw ∧ c ∈ cin)) ∧
    (∀ out, ixGacComps asked raw cin ions k = .ok out → (c ∈ out ↔ c ∈ asked ∧ c ∈ raw ∧ c ∈ cin)) := by
  constructor
  · intro out h
    unfold gacIxComps at h
    split at h
    · cases h
    · split at h
      · cases h
      · simp only [Except.ok.injEq] at h
        subst h
        have := hs c
        tauto
  · intro out h
    unfold ixGacComps at h
    split at h
    · cases h
    · simp only [Except.ok.injEq] at h
      subst h
      rw [mem_useComps]
      have := hs c
      tauto

/-- C189. What is simulated: the compounds asked for, behind a resin vessel also the others in common. -/
theorem c189_simulated {asked raw rawEff cin ions k out : List String} :
    (gacIxComps asked raw rawEff cin k = .ok out → out = asked ∧ ∀ c ∈ asked, c ∈ raw ∧ c ∈ rawEff ∧ c ∈ k) ∧
    (ixGacComps asked raw cin ions k = .ok out → out.Nodup ∧ (∀ c, c ∈ out ↔ c ∈ asked ∨ c ∈ raw ∧ c ∈ cin) ∧
      ∀ c ∈ asked, c ∈ cin ∧ c ∈ ions ∧ c ∈ k) := by
  constructor
  · intro h
    unfold gacIxComps at h
    split at h
    · cases h
    · rename_i h1
      split at h
      · cases h
      · rename_i h2
        simp only [Except.ok.injEq] at h
        refine ⟨h.symm, fun c hc => ?_⟩
        push Not at h1 h2
        have := h1 c (mem_useComps.2 (.inl hc))
        exact ⟨this.1, this.2, h2 c hc⟩
  · intro h
    unfold ixGacComps at h
    split at h
    · cases h
    · rename_i h1
      simp only [Except.ok.injEq] at h
      subst h
      push Not at h1
      exact ⟨List.nodup_dedup _, fun c => mem_useComps, fun c hc => h1 c (mem_useComps.2 (.inl hc))⟩

/-- C189. A compound asked for that the resin influent, the ions or the isotherms do not have is a `KeyError`, not left out; so is one in
common that has no isotherm, asked for or not. -/
theorem c189_missing {asked raw cin ions k : List String} {c : String} (h : c ∈ asked ∨ c ∈ raw ∧ c ∈ cin)
    (hm : c ∉ cin ∨ c ∉ ions ∨ c ∉ k) : ixGacComps asked raw cin ions k = .error .keyError := by
  unfold ixGacComps
  rw [if_pos ⟨c, mem_useComps.2 h, hm⟩]

/-- C189 is false: one compound asked for, two in common. -/
theorem c189_false : ¬ C189 := by
  intro H
  have h1 : ixGacComps ["PFOA"] ["PFOA", "PFOS"] ["PFOA", "PFOS"] ["PFOA", "PFOS"] ["PFOA", "PFOS"] =
      .ok (useComps ["PFOA"] ["PFOA", "PFOS"] ["PFOA", "PFOS"]) := by
    unfold ixGacComps
    rw [if_neg]
    rintro ⟨c, hc, h⟩
    rw [mem_useComps] at hc
    simp only [List.mem_cons, List.not_mem_nil, or_false] at hc h
    tauto
  have := ((H ["PFOA"] ["PFOA", "PFOS"] [] ["PFOA", "PFOS"] ["PFOA", "PFOS"] ["PFOA", "PFOS"] "PFOS").2 _ h1).1
    (mem_useComps.2 (.inr ⟨by simp, by simp⟩))
  simp at this

/-- Hypotheses of `c189_partial`. -/
example : (∀ d, d ∈ ["PFOA"] ↔ d ∈ ["PFOA", "PFBS"] ∧ d ∈ ["Time", "PFOA"]) ∧
    ∃ out, gacIxComps ["PFOA"] ["PFOA", "PFBS"] ["PFOA"] ["Time", "PFOA"] ["PFOA"] = .ok out := by
  refine ⟨fun d => ?_, ["PFOA"], ?_⟩
  · simp only [List.mem_cons, List.not_mem_nil, or_false]
    constructor
    · rintro rfl; exact ⟨.inl rfl, .inr rfl⟩
    · rintro ⟨rfl | rfl, h | h⟩
      · exact absurd h (by decide)
      · rfl
      · exact absurd h (by decide)
      · exact h
  · unfold gacIxComps
    rw [if_neg, if_neg]
    · simp
    · rintro ⟨c, hc, h⟩
      rw [mem_useComps] at hc
      simp only [List.mem_cons, List.not_mem_nil, or_false] at hc h
      rcases hc with rfl | ⟨rfl | rfl, h' | h'⟩
      · simp at h
      · simp at h'
      · simp at h
      · simp at h'
      · simp at h'

/-! ### C190: parameters and times of the workbook -/

/-- C190. With a workbook the number of points are those of the keywords, the other parameters those of the workbook, and times are in days
as lead-lag runs count them: each is the time of the workbook. -/
def C190 : Prop := ∀ (a : LLArgs) (b : ResinBook) (p : List (String × ℝ × String)) (cols : List String) (t : List ℝ) (o : LLInit)
  (v : ℝ) (u : String) (sz : ℚ), a.book = some b → b.params = some p → b.cin = some (cols, t) → p.lookup "time" = some (v, u) →
  Spec.size .time u = some sz → (∃ q, p.lookup "nr" = some q) → (∃ q, p.lookup "nz" = some q) → llInit a = .ok o →
  o.paramRows.lookup "nr" = (p.lookup "nr").map (fun q => (a.nr, q.2)) ∧ o.paramRows.lookup "nz" = (p.lookup "nz").map (fun q => (a.nz, q.2)) ∧
  (∀ n, n ≠ "nr" → n ≠ "nz" → n ≠ "time" → o.paramRows.lookup n = p.lookup n) ∧
  o.times = t.map (fun x : ℝ => x * (sz : ℝ) / 86400)

theorem c190_rows {a : LLArgs} {b : ResinBook} {p : List (String × ℝ × String)} {cols : List String} {t : List ℝ} {o : LLInit} {v : ℝ}
    {u : String} (hb : a.book = some b) (hp : b.params = some p) (hc : b.cin = some (cols, t)) (ht : p.lookup "time" = some (v, u))
    (hr : ∃ q, p.lookup "nr" = some q) (hz : ∃ q, p.lookup "nz" = some q) (h : llInit a = .ok o) :
    o.paramRows.lookup "nr" = (p.lookup "nr").map (fun q => (a.nr, q.2)) ∧
    o.paramRows.lookup "nz" = (p.lookup "nz").map (fun q => (a.nz, q.2)) ∧
    (∀ n, n ≠ "nr" → n ≠ "nz" → n ≠ "time" → o.paramRows.lookup n = p.lookup n) ∧
    o.paramRows.lookup "time" = some (v, if u = "hr" then "day" else u) ∧ o.paramRows.map Prod.fst = p.map Prod.fst ∧
    o.times = (if u = "hr" then t.map (· / 24) else t) ∧ o.cin = .flat cols ∧ o.error = false := by
  obtain ⟨q1, hr⟩ := hr
  obtain ⟨q2, hz⟩ := hz
  have hP : (llParams a b).1 = some (setParam "nz" (fun q => (a.nz, q.2)) (setParam "nr" (fun q => (a.nr, q.2)) p)) := by
    unfold llParams
    rw [hp]
    simp only [hr, hz]
  set p' := setParam "nz" (fun q => (a.nz, q.2)) (setParam "nr" (fun q => (a.nr, q.2)) p) with hp'
  have l1 : p'.lookup "nr" = some (a.nr, q1.2) := by
    rw [hp', lookup_setParam, if_neg (by decide), lookup_setParam, if_pos rfl, hr]; rfl
  have l2 : p'.lookup "nz" = some (a.nz, q2.2) := by
    rw [hp', lookup_setParam, if_pos rfl, lookup_setParam, if_neg (by decide), hz]; rfl
  have l3 : ∀ n, n ≠ "nr" → n ≠ "nz" → p'.lookup n = p.lookup n := fun n h1 h2 => by
    rw [hp', lookup_setParam, if_neg h2, lookup_setParam, if_neg h1]
  have l4 : p'.lookup "time" = some (v, u) := by rw [l3 _ (by decide) (by decide), ht]
  have l5 : p'.map Prod.fst = p.map Prod.fst := by rw [hp', setParam_names, setParam_names]
  unfold llInit at h
  rw [hb] at h
  split at h
  · cases h
  · simp only at h
    split at h
    · cases h
    · simp only [Except.ok.injEq] at h
      subst h
      simp only [hP, hr, hz, Option.map_some]
      unfold llCin
      rw [hc]
      simp only [l4]
      by_cases hu : u = "hr"
      · simp only [if_pos hu, Option.getD_some]
        refine ⟨?_, ?_, fun n h1 h2 h3 => ?_, ?_, ?_, trivial, trivial, trivial⟩
        · rw [lookup_setParam, if_neg (by decide), l1]
        · rw [lookup_setParam, if_neg (by decide), l2]
        · rw [lookup_setParam, if_neg h3, l3 n h1 h2]
        · rw [lookup_setParam, if_pos rfl, l4]; rfl
        · rw [setParam_names, l5]
      · simp only [if_neg hu, Option.getD_some]
        exact ⟨l1, l2, fun n h1 h2 _ => l3 n h1 h2, l4, l5, trivial, trivial, trivial⟩

/-- C190, as far as it holds: times in `hr`, `day`, `days` or `d`. Missing: the other units the resin model accepts; these times stay as they
are. -/
theorem c190_partial {a : LLArgs} {b : ResinBook} {p : List (String × ℝ × String)} {cols : List String} {t : List ℝ} {o : LLInit} {v : ℝ}
    {u : String} {sz : ℚ} (hu : u = "hr" ∨ u = "day" ∨ u = "days" ∨ u = "d") (hs : Spec.size .time u = some sz)
    (hb : a.book = some b) (hp : b.params = some p) (hc : b.cin = some (cols, t)) (ht : p.lookup "time" = some (v, u))
    (hr : ∃ q, p.lookup "nr" = some q) (hz : ∃ q, p.lookup "nz" = some q) (h : llInit a = .ok o) :
    o.paramRows.lookup "nr" = (p.lookup "nr").map (fun q => (a.nr, q.2)) ∧
    o.paramRows.lookup "nz" = (p.lookup "nz").map (fun q => (a.nz, q.2)) ∧
    (∀ n, n ≠ "nr" → n ≠ "nz" → n ≠ "time" → o.paramRows.lookup n = p.lookup n) ∧
    o.times = t.map (fun x : ℝ => x * (sz : ℝ) / 86400) := by
  obtain ⟨h1, h2, h3, -, -, h4, -⟩ := c190_rows hb hp hc ht hr hz h
  refine ⟨h1, h2, h3, ?_⟩
  rw [h4]
  rcases hu with rfl | rfl | rfl | rfl
  · rw [if_pos rfl]
    obtain rfl : (3600 : ℚ) = sz := Option.some.inj hs
    refine List.map_congr_left fun x _ => ?_
    push_cast
    ring
  all_goals
    rw [if_neg (by decide)]
    obtain rfl : (86400 : ℚ) = sz := Option.some.inj hs
    conv_lhs => rw [← List.map_id t]
    refine List.map_congr_left fun x _ => ?_
    push_cast
    simp

/-- C190 is false: times in hours, spelled `h`. -/
theorem c190_false : ¬ C190 := by
  intro H
  have he : llErrK (demoLL none (some (demoBook "h"))) = true := rfl
  have hi : ∃ o, llInit (demoLL none (some (demoBook "h"))) = .ok o := by
    unfold llInit
    rw [llRaw_none he]
    exact ⟨_, rfl⟩
  obtain ⟨o, ho⟩ := hi
  obtain ⟨-, -, -, h⟩ := H (demoLL none (some (demoBook "h"))) (demoBook "h") _ ["Time", "CHLORIDE", "PFOA"] [0, 48] o 1 "h" 3600 rfl rfl rfl
    rfl rfl ⟨(7, ""), rfl⟩ ⟨(13, ""), rfl⟩ ho
  obtain ⟨-, -, -, -, -, h', -⟩ := c190_rows (a := demoLL none (some (demoBook "h"))) (b := demoBook "h") (v := 1) (u := "h") rfl rfl rfl rfl
    ⟨(7, ""), rfl⟩ ⟨(13, ""), rfl⟩ ho
  rw [if_neg (by decide)] at h'
  rw [h'] at h
  simp only [List.map_cons, List.map_nil, List.cons.injEq, and_true] at h
  norm_num at h

/-- Hypotheses of `c190_partial`: the workbook in hours. -/
example : Spec.size .time "hr" = some 3600 ∧ (demoBook "hr").cin = some (["Time", "CHLORIDE", "PFOA"], [0, 48]) ∧
    ∃ o, llInit (demoLL none (some (demoBook "hr"))) = .ok o := by
  refine ⟨rfl, rfl, ?_⟩
  unfold llInit
  rw [llRaw_none rfl]
  exact ⟨_, rfl⟩

end WTM
