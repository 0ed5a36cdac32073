import Mathlib.Tactic
import Mathlib.Data.List.Perm.Basic
import Verif.Model.PacRead
import Verif.Props.RPac

/-! C250-C253: how the tables of a powdered carbon model are read. -/
set_option autoImplicit false
namespace WTM

/-! ### Vocabulary -/

/-- Two texts that differ at most in case. -/
def Spec.CaseSame (a b : String) : Prop := a.toList.map Char.toLower = b.toList.map Char.toLower

/-- Two units cells: texts up to case, or the same cell. -/
def Spec.SameUnits (a b : PCell) : Prop := a = b ∨ ∃ u v, a = .text u ∧ b = .text v ∧ Spec.CaseSame u v

/-- Two value cells holding the same number, each as a number or as a text that reads as that number. -/
def Spec.SameNumber (T : PText) (a b : PCell) : Prop :=
  ∃ x, (a = .num x ∨ ∃ s, a = .text s ∧ T.parse s = some x) ∧ (b = .num x ∨ ∃ s, b = .text s ∧ T.parse s = some x)

/-- Two rows saying the same: the same name up to case, the same value, the same units up to case. -/
structure Spec.SameLine (T : PText) (r s : PLine) : Prop where
  name : Spec.CaseSame r.name s.name
  value : r.value = s.value ∨ Spec.SameNumber T r.value s.value
  units : Spec.SameUnits r.units s.units

/-- Neither or both of the names are the word `format` in lower case, and then the values are the same cell. -/
structure Spec.SameFormat (r s : PLine) : Prop where
  name : r.name = "format" ↔ s.name = "format"
  value : r.name = "format" → r.value = s.value

/-! ### Forcing -/

theorem lowerStr_same {a b : String} : lowerStr a = lowerStr b ↔ Spec.CaseSame a b := by
  unfold lowerStr Spec.CaseSame
  constructor
  · intro h
    have := congrArg String.toList h
    simpa using this
  · intro h
    rw [h]

theorem number_same {T : PText} {a b : PCell} (h : a = b ∨ Spec.SameNumber T a b) : T.number a = T.number b := by
  rcases h with h | ⟨x, ha, hb⟩
  · rw [h]
  · have : ∀ c : PCell, (c = .num x ∨ ∃ s, c = .text s ∧ T.parse s = some x) → T.number c = .ok x := by
      rintro c (rfl | ⟨s, rfl, hs⟩)
      · rfl
      · simp [PText.number, hs]
    rw [this a ha, this b hb]

/-- What later code sees of a row. -/
def LineEq (r s : PLine) : Prop := r.lower.name = s.lower.name ∧ r.value = s.value ∧ Spec.SameUnits r.units s.units

/-- Results of the same kind. -/
def ExRel {α : Type} (R : α → α → Prop) (a b : Except PyErr α) : Prop :=
  match a, b with
  | .ok x, .ok y => R x y
  | .error e, .error e' => e = e'
  | _, _ => False

theorem mapM_rel {α β : Type} {R : α → α → Prop} {Q : β → β → Prop} (f : α → Except PyErr β)
    (hf : ∀ a b, R a b → ExRel Q (f a) (f b)) {l l' : List α} (h : List.Forall₂ R l l') :
    ExRel (List.Forall₂ Q) (l.mapM f) (l'.mapM f) := by
  induction h with
  | nil => simp [ExRel, pure, Except.pure]
  | @cons a b l l' hab _ ih =>
    have h1 := hf a b hab
    simp only [List.mapM_cons]
    cases ha : f a <;> cases hb : f b <;> rw [ha, hb] at h1 <;> simp only [ExRel] at h1
    · simp [ExRel, bind, Except.bind, h1]
    · cases hl : l.mapM f <;> cases hl' : l'.mapM f <;> rw [hl, hl'] at ih <;> simp only [ExRel] at ih
      · simp [ExRel, bind, Except.bind, ih]
      · simp only [ExRel, bind, Except.bind, pure, Except.pure]
        exact List.Forall₂.cons h1 ih

theorem forceNum_rel {T : PText} {r s : PLine} (h : Spec.SameLine T r s) : ExRel LineEq (r.forceNum T) (s.forceNum T) := by
  unfold PLine.forceNum
  rw [number_same h.value]
  cases hn : T.number s.value with
  | error e => simp [ExRel, bind, Except.bind]
  | ok x =>
    simp only [ExRel, bind, Except.bind, pure, Except.pure]
    exact ⟨lowerStr_same.2 h.name, rfl, h.units⟩

theorem force_rel {T : PText} {r s : PLine} (h : Spec.SameLine T r s) (hf : Spec.SameFormat r s) :
    ExRel LineEq (r.force T) (s.force T) := by
  unfold PLine.force
  by_cases hr : r.name = "format"
  · rw [if_pos hr, if_pos (hf.name.1 hr)]
    exact ⟨lowerStr_same.2 h.name, by simp [hf.value hr], h.units⟩
  · rw [if_neg hr, if_neg (fun e => hr (hf.name.2 e))]
    exact forceNum_rel h

/-! ### Looking rows up -/

theorem getLine_rel {t t' : List PLine} (h : List.Forall₂ LineEq t t') (k : String) :
    (getLine (t.map PLine.lower) k = none ∧ getLine (t'.map PLine.lower) k = none) ∨
    ∃ r s, getLine (t.map PLine.lower) k = some r ∧ getLine (t'.map PLine.lower) k = some s ∧ r.value = s.value ∧
      Spec.SameUnits r.units s.units := by
  induction h with
  | nil => left; simp [getLine]
  | @cons a b l l' hab _ ih =>
    unfold getLine at *
    simp only [List.map_cons, List.find?_cons]
    obtain ⟨h1, h2, h3⟩ := hab
    rw [h1]
    by_cases hk : b.lower.name = k
    · right
      simp only [hk, decide_true]
      exact ⟨a.lower, b.lower, rfl, rfl, h2, h3⟩
    · simp only [hk, decide_false]
      exact ih

theorem getLine_val {t t' : List PLine} (h : List.Forall₂ LineEq t t') (k : String) :
    (getLine (t.map PLine.lower) k).map PLine.val = (getLine (t'.map PLine.lower) k).map PLine.val := by
  rcases getLine_rel h k with ⟨h1, h2⟩ | ⟨r, s, h1, h2, h3, _⟩
  · rw [h1, h2]
  · rw [h1, h2]; simp [PLine.val, h3]

theorem getLine_write (T : PText) {t t' : List PLine} (h : List.Forall₂ LineEq t t') (k : String) :
    ((getLine (t.map PLine.lower) k).map fun r => T.write r.value) = (getLine (t'.map PLine.lower) k).map fun r => T.write r.value := by
  rcases getLine_rel h k with ⟨h1, h2⟩ | ⟨r, s, h1, h2, h3, _⟩
  · rw [h1, h2]
  · rw [h1, h2]; simp [h3]

/-- Two rows with units, alike. -/
def RowEq (a b : Option PacRow) : Prop :=
  (a = none ∧ b = none) ∨ ∃ x u v, a = some (x, u) ∧ b = some (x, v) ∧ lowerStr u = lowerStr v

theorem rowOf_rel {t t' : List PLine} (h : List.Forall₂ LineEq t t') (k : String) :
    ExRel RowEq (rowOf (t.map PLine.lower) k) (rowOf (t'.map PLine.lower) k) := by
  unfold rowOf
  rcases getLine_rel h k with ⟨h1, h2⟩ | ⟨r, s, h1, h2, h3, h4⟩
  · rw [h1, h2]; exact .inl ⟨rfl, rfl⟩
  · rw [h1, h2]
    have hv : r.val = s.val := by simp [PLine.val, h3]
    rcases h4 with h4 | ⟨u, v, hu, hv', huv⟩
    · cases hs : s.units with
      | num x => simp [PLine.row, h4, hs, ExRel, bind, Except.bind]
      | text u =>
        simp only [PLine.row, h4, hs, ExRel, bind, Except.bind, pure, Except.pure, hv]
        exact .inr ⟨_, _, _, rfl, rfl, rfl⟩
    · simp only [PLine.row, hu, hv', ExRel, bind, Except.bind, pure, Except.pure, hv]
      exact .inr ⟨_, _, _, rfl, rfl, lowerStr_same.2 huv⟩

theorem conv_eq {tab : List (String × ℝ)} {x : Option ℝ} {u v : String} (h : lowerStr u = lowerStr v) :
    PacRow.conv tab (x, u) = PacRow.conv tab (x, v) := by
  simp [PacRow.conv, h]

theorem convOr_eq {tab : List (String × ℝ)} {a b : Option PacRow} (h : RowEq a b) : convOr tab a = convOr tab b := by
  rcases h with ⟨rfl, rfl⟩ | ⟨x, u, v, rfl, rfl, h⟩
  · rfl
  · simp only [convOr, conv_eq h]

/-- Inputs alike up to the case of units. -/
structure InEq (i j : PacIn) : Prop where
  density : i.density = j.density
  porosity : i.porosity = j.porosity
  radius : RowEq i.radius j.radius
  length : RowEq i.length j.length
  format : i.format = j.format
  aspect : i.aspect = j.aspect
  height : RowEq i.height j.height
  volume : RowEq i.volume j.volume
  flow : RowEq i.flow j.flow
  hrt : RowEq i.hrt j.hrt
  crt : RowEq i.crt j.crt
  dosage : i.dosage = j.dosage

theorem pacBuild_alike {i j : PacIn} (h : InEq i j) : pacBuild i = pacBuild j := by
  have hl : lenAttr i.length = lenAttr j.length := by
    rcases h.length with ⟨h1, h2⟩ | ⟨x, u, v, h1, h2, h3⟩
    · rw [h1, h2]
    · rw [h1, h2]; simp only [lenAttr, conv_eq h3]
  have hf : getFlow i.flow = getFlow j.flow := by
    rcases h.flow with ⟨h1, h2⟩ | ⟨x, u, v, h1, h2, h3⟩
    · rw [h1, h2]
    · rw [h1, h2]; simp only [getFlow, conv_eq h3]
  have hv : ∀ f l g, useVolume f i.volume l g = useVolume f j.volume l g := by
    intro f l g
    rcases h.volume with ⟨h1, h2⟩ | ⟨x, u, v, h1, h2, h3⟩
    · rw [h1, h2]
    · rw [h1, h2]; simp only [useVolume, conv_eq h3]
  unfold pacBuild pacGeo
  simp only [h.density, h.porosity, h.format, h.aspect, h.dosage, convOr_eq h.radius, convOr_eq h.height, convOr_eq h.hrt, convOr_eq h.crt,
    hl, hf, hv]

/-- Bind of related results. -/
theorem bind_rel {α β : Type} {R : α → α → Prop} {a b : Except PyErr α} (h : ExRel R a b) {f g : α → Except PyErr β}
    (hfg : ∀ x y, R x y → f x = g y) : (a >>= f) = (b >>= g) := by
  cases a <;> cases b <;> simp only [ExRel] at h
  · rw [h]; rfl
  · exact hfg _ _ h

theorem pacRows_build {T : PText} {con con' pac pac' : List PLine} (hc : List.Forall₂ LineEq con con')
    (hp : List.Forall₂ LineEq pac pac') :
    (pacRows T (con.map PLine.lower) (pac.map PLine.lower) >>= pacBuild) =
      (pacRows T (con'.map PLine.lower) (pac'.map PLine.lower) >>= pacBuild) := by
  unfold pacRows
  simp only [bind_assoc, pure_bind]
  refine bind_rel (rowOf_rel hp "radius") fun a a' ha => ?_
  refine bind_rel (rowOf_rel hc "length/diameter") fun b b' hb => ?_
  refine bind_rel (rowOf_rel hc "height") fun c c' hc' => ?_
  refine bind_rel (rowOf_rel hc "volume") fun d d' hd => ?_
  refine bind_rel (rowOf_rel hc "flow") fun e e' he => ?_
  refine bind_rel (rowOf_rel hc "hrt") fun f f' hf => ?_
  refine bind_rel (rowOf_rel hc "crt") fun g g' hg => ?_
  refine pacBuild_alike ⟨getLine_val hp _, getLine_val hp _, ha, hb, getLine_write T hc _, getLine_val hc _, hc', hd, he, hf, hg,
    getLine_val hc _⟩

/-! ### C250 -/

/-- C250, in full: tables that say the same, whatever the case of their names and units and whether numbers are numbers or text, give
the same model. -/
def C250 : Prop :=
  ∀ (T : PText) (kw : PacKw) (con con' pac pac' : List PLine) (comp : List (String × List PCell)),
    List.Forall₂ (Spec.SameLine T) con con' → List.Forall₂ (Spec.SameLine T) pac pac' →
      pacConstruct T kw con pac comp = pacConstruct T kw con' pac' comp

/-- C250, as far as it holds: the row `format` has to be named in lower case in both tables or in neither, with the same text. -/
theorem c250_partial (T : PText) (kw : PacKw) {con con' pac pac' : List PLine} (comp : List (String × List PCell))
    (hc : List.Forall₂ (fun r s => Spec.SameLine T r s ∧ Spec.SameFormat r s) con con') (hp : List.Forall₂ (Spec.SameLine T) pac pac') :
    pacConstruct T kw con pac comp = pacConstruct T kw con' pac' comp := by
  have h1 := mapM_rel (PLine.force T) (fun a b h => force_rel h.1 h.2) hc
  have h2 := mapM_rel (PLine.forceNum T) (fun a b h => forceNum_rel h) hp
  unfold pacConstruct
  refine bind_rel h1 fun c c' hcc => ?_
  refine bind_rel h2 fun p p' hpp => ?_
  have hb := pacRows_build (T := T) hcc hpp
  have ht := getLine_val hcc "temperature"
  refine bind_congr fun cm => ?_
  dsimp only
  refine bind_congr fun tm => ?_
  rw [ht, ← bind_assoc, ← bind_assoc, hb]

/-- A row not named `format` in lower case whose value is a text that reads as no number ends the construction. -/
theorem c250_text (T : PText) (kw : PacKw) {con : List PLine} (pac : List PLine) (comp : List (String × List PCell)) {r : PLine} {s : String}
    (hr : r ∈ con) (hn : r.name ≠ "format") (hv : r.value = .text s) (hs : T.parse s = none) :
    pacConstruct T kw con pac comp = .error .valueError := by
  have key : con.mapM (PLine.force T) = .error .valueError := by
    induction con with
    | nil => simp at hr
    | cons a l ih =>
      have hall : ∀ e, a.force T = .error e → e = .valueError := by
        intro e he
        unfold PLine.force PLine.forceNum PText.number at he
        split at he
        · cases he
        · cases hva : a.value with
          | num x => rw [hva] at he; simp [bind, Except.bind, pure, Except.pure] at he
          | text u =>
            rw [hva] at he
            cases hp : T.parse u <;> simp [hp, bind, Except.bind, pure, Except.pure] at he
            exact he.symm
      rw [List.mapM_cons]
      rcases List.mem_cons.1 hr with rfl | hr
      · have : r.force T = .error .valueError := by
          unfold PLine.force PLine.forceNum PText.number
          rw [if_neg hn, hv]
          simp [hs, bind, Except.bind]
        rw [this]; rfl
      · cases ha : a.force T with
        | error e => rw [hall e ha]; rfl
        | ok b =>
          rw [ih hr]; rfl
  unfold pacConstruct
  rw [key]; rfl

/-! ### C253 -/

theorem lower_names : lowerStr "format" = "format" ∧ lowerStr "length/diameter" = "length/diameter" ∧
    lowerStr "temperature" = "temperature" ∧ lowerStr "height" = "height" ∧ lowerStr "volume" = "volume" ∧ lowerStr "flow" = "flow" ∧
    lowerStr "HRT" = "hrt" ∧ lowerStr "CRT" = "crt" ∧ lowerStr "PAC Dosage" = "pac dosage" ∧ lowerStr "density" = "density" ∧
    lowerStr "porosity" = "porosity" ∧ lowerStr "radius" = "radius" := by decide

/-- C253. The tables the web application makes of its form are read back as the form, provided numbers written as text are read as
themselves: whatever the compounds, the construction is that of the form's entries. -/
theorem c253_form (T : PText) (w : ℝ → String) (tu : String) (f : RPacForm) (nr : ℕ)
    (hw : ∀ x ∈ [f.ld, f.temp, f.height, f.vol, f.flow, f.hrt, f.crt, f.dosage], T.parse (w x) = some (some x))
    (comp : List (String × List PCell)) {cm : List (String × List PCell)} (hcm : comp.mapM (forceComp T) = .ok cm) {b : PacBuilt}
    (hb : pacBuild f.rows = .ok b) {cv : List ℝ} (hcv : convArray cm = .ok cv) :
    pacConstruct T { nr := some nr } (f.contactor w tu) f.carbon comp =
      .ok ⟨nr, some f.temp, 60, b, nmax b.hrt b.crt, cm, cv⟩ := by
  simp only [List.mem_cons, List.not_mem_nil, or_false, forall_eq_or_imp, forall_eq] at hw
  obtain ⟨w1, w2, w3, w4, w5, w6, w7, w8⟩ := hw
  obtain ⟨n1, n2, n3, n4, n5, n6, n7, n8, n9, n10, n11, n12⟩ := lower_names
  have h1 : (f.contactor w tu).mapM (PLine.force T) = .ok
      [⟨"format", .text f.format, .text "NaN"⟩, ⟨"length/diameter", .num (some f.ld), .text f.ldunits⟩,
       ⟨"temperature", .num (some f.temp), .text tu⟩, ⟨"height", .num (some f.height), .text f.heightunits⟩,
       ⟨"volume", .num (some f.vol), .text f.volunits⟩, ⟨"flow", .num (some f.flow), .text f.flowunits⟩,
       ⟨"HRT", .num (some f.hrt), .text f.hrtunits⟩, ⟨"CRT", .num (some f.crt), .text f.crtunits⟩,
       ⟨"PAC Dosage", .num (some f.dosage), .text f.dosageunits⟩] := by
    simp [RPacForm.contactor, PLine.force, PLine.forceNum, PText.number, PText.write, w1, w2, w3, w4, w5, w6, w7, w8, bind, Except.bind, pure, Except.pure]
  have h2 : f.carbon.mapM (PLine.forceNum T) = .ok f.carbon := by
    simp [RPacForm.carbon, PLine.forceNum, PText.number, bind, Except.bind, pure, Except.pure]
  unfold pacConstruct
  rw [h1, h2, hcm]
  simp only [bind, Except.bind, pure, Except.pure]
  have ht : pacUnit pacTime ("min") = .ok 60 := by simp [pacUnit, pacTime]
  simp only [Option.getD_none, Option.getD_some, ht, Option.map_none]
  have h3 : pacRows T (List.map PLine.lower
      [⟨"format", .text f.format, .text "NaN"⟩, ⟨"length/diameter", .num (some f.ld), .text f.ldunits⟩,
       ⟨"temperature", .num (some f.temp), .text tu⟩, ⟨"height", .num (some f.height), .text f.heightunits⟩,
       ⟨"volume", .num (some f.vol), .text f.volunits⟩, ⟨"flow", .num (some f.flow), .text f.flowunits⟩,
       ⟨"HRT", .num (some f.hrt), .text f.hrtunits⟩, ⟨"CRT", .num (some f.crt), .text f.crtunits⟩,
       ⟨"PAC Dosage", .num (some f.dosage), .text f.dosageunits⟩]) (f.carbon.map PLine.lower) = .ok f.rows := by
    simp [pacRows, rowOf, getLine, RPacForm.carbon, PLine.lower, n1, n2, n3, n4, n5, n6, n7, n8, n9, n10, n11, n12, PLine.row, PLine.val,
      PText.write, bind, Except.bind, pure, Except.pure, RPacForm.rows]
  simp only [h3, hb, hcv]
  simp [getLine, PLine.lower, n1, n2, n3, PLine.val]

/-- Reading and writing the numbers of the form `exForm`, and one more. -/
noncomputable def exText : PText where
  parse s := if s = "10" then some (some 10) else if s = "5" then some (some 5) else if s = "500000" then some (some 500000)
    else if s = "60" then some (some 60) else if s = "20" then some (some 20) else none
  str _ := "1"

open Classical in
/-- Writing the numbers of the form `exForm`. -/
noncomputable def exWrite (x : ℝ) : String :=
  if x = 10 then "10" else if x = 5 then "5" else if x = 500000 then "500000" else if x = 60 then "60" else "20"

/-- A table of two compounds, numbers as text or not. -/
def exComps : List (String × List PCell) :=
  [("K", [.text "10", .num (some 7)]), ("C0", [.num (some 1), .text "5"]), ("C0_units", [.text "ug/L", .text "mg/L"])]

theorem exComps_forced : exComps.mapM (forceComp exText) =
    .ok [("K", [.num (some 10), .num (some 7)]), ("C0", [.num (some 1), .num (some 5)]), ("C0_units", [.text "ug/L", .text "mg/L"])] := by
  simp [exComps, forceComp, exText, PText.number, bind, Except.bind, pure, Except.pure]

/-- The form as it opens, with these compounds. -/
theorem c253_example : ∃ b, pacBuild exForm.rows = .ok b ∧
    pacConstruct exText { nr := some 8 } (exForm.contactor exWrite "C") exForm.carbon exComps =
      .ok ⟨8, some 10, 60, b, some 3600, [("K", [.num (some 10), .num (some 7)]), ("C0", [.num (some 1), .num (some 5)]),
        ("C0_units", [.text "ug/L", .text "mg/L"])], [1, 1000]⟩ := by
  refine ⟨_, rPac_built exForm_offered, ?_⟩
  rw [c253_form exText exWrite "C" exForm 8 (by
      simp [exForm, exWrite, exText]) exComps exComps_forced (rPac_built exForm_offered) (cv := [1, 1000]) (by
      show [PCell.text "ug/L", PCell.text "mg/L"].mapM concFactor = .ok [1, 1000]
      have h1 : pacUnit pacConc "ug/L" = .ok 1 := rfl
      have h2 : pacUnit pacConc "mg/L" = .ok 1000 := by
        show Except.ok (1e3 : ℝ) = _
        norm_num
      simp [concFactor, h1, h2, bind, Except.bind, pure, Except.pure])]
  simp [nmax, exForm]
  norm_num

/-! ### C250, the counterexample -/

/-- C250 is false: the form as it opens, with `Format` for `format`. -/
theorem c250_false : ¬ C250 := by
  intro h
  obtain ⟨b, -, hb⟩ := c253_example
  have h1 := h exText { nr := some 8 } (exForm.contactor exWrite "C")
    (⟨"Format", .text "Square", .text "NaN"⟩ :: (exForm.contactor exWrite "C").tail) exForm.carbon exForm.carbon exComps
    (by
      refine List.Forall₂.cons ⟨?_, .inl rfl, .inl rfl⟩ (List.forall₂_same.2 fun r _ => ⟨rfl, .inl rfl, .inl rfl⟩)
      unfold Spec.CaseSame
      decide)
    (List.forall₂_same.2 fun r _ => ⟨rfl, .inl rfl, .inl rfl⟩)
  rw [hb, c250_text exText _ (r := ⟨"Format", .text "Square", .text "NaN"⟩) (s := "Square") _ _ (by simp) (by decide) rfl (by
    simp [exText])] at h1
  cases h1

/-- Two tables as in `c250_partial`. -/
example : List.Forall₂ (fun r s => Spec.SameLine exText r s ∧ Spec.SameFormat r s)
    [⟨"format", .text "square", .num none⟩, ⟨"HRT", .text "60", .text "min"⟩]
    [⟨"format", .text "square", .num none⟩, ⟨"hrt", .num (some 60), .text "Min"⟩] := by
  refine List.Forall₂.cons ⟨⟨rfl, .inl rfl, .inl rfl⟩, ⟨Iff.rfl, fun _ => rfl⟩⟩ (List.Forall₂.cons ⟨⟨?_, .inr ⟨some 60, ?_, .inl rfl⟩, ?_⟩, ⟨?_, ?_⟩⟩ .nil)
  · unfold Spec.CaseSame; decide
  · exact .inr ⟨"60", rfl, by simp [exText]⟩
  · exact .inr ⟨"min", "Min", rfl, rfl, by unfold Spec.CaseSame; decide⟩
  · decide
  · intro h
    exact absurd h (by decide)

/-! ### C251 and C252 -/

/-- The rows of the contactor's table that mean something. -/
def Spec.conNames : List String :=
  ["format", "length/diameter", "temperature", "aspect ratio", "height", "volume", "flow", "hrt", "crt", "pac dosage"]

/-- The rows of the carbon's table that mean something. -/
def Spec.pacNames : List String := ["density", "porosity", "radius"]

/-- Tables that agree on given rows. -/
def LookEq (ks : List String) (c c' : List PLine) : Prop :=
  ∀ k ∈ ks, getLine (c.map PLine.lower) k = getLine (c'.map PLine.lower) k

theorem construct_look (T : PText) (kw : PacKw) {con con' pac pac' : List PLine} (comp : List (String × List PCell))
    (hc : ExRel (LookEq Spec.conNames) (con.mapM (PLine.force T)) (con'.mapM (PLine.force T)))
    (hp : ExRel (LookEq Spec.pacNames) (pac.mapM (PLine.forceNum T)) (pac'.mapM (PLine.forceNum T))) :
    pacConstruct T kw con pac comp = pacConstruct T kw con' pac' comp := by
  unfold pacConstruct
  refine bind_rel hc fun c c' hcc => ?_
  refine bind_rel hp fun p p' hpp => ?_
  simp only [LookEq, Spec.conNames, Spec.pacNames, List.mem_cons, List.not_mem_nil, or_false, forall_eq_or_imp, forall_eq] at hcc hpp
  obtain ⟨h1, h2, h3, h4, h5, h6, h7, h8, h9, h10⟩ := hcc
  obtain ⟨g1, g2, g3⟩ := hpp
  simp only [pacRows, rowOf, h1, h2, h3, h4, h5, h6, h7, h8, h9, h10, g1, g2, g3]

theorem force_err {T : PText} {r : PLine} {e : PyErr} (h : r.force T = .error e) : e = .valueError := by
  unfold PLine.force PLine.forceNum PText.number at h
  split at h
  · cases h
  · cases hv : r.value with
    | num x => rw [hv] at h; simp [bind, Except.bind, pure, Except.pure] at h
    | text u =>
      rw [hv] at h
      cases hp : T.parse u <;> simp [hp, bind, Except.bind, pure, Except.pure] at h
      exact h.symm

theorem forceNum_err {T : PText} {r : PLine} {e : PyErr} (h : r.forceNum T = .error e) : e = .valueError := by
  unfold PLine.forceNum PText.number at h
  cases hv : r.value with
  | num x => rw [hv] at h; simp [bind, Except.bind, pure, Except.pure] at h
  | text u =>
    rw [hv] at h
    cases hp : T.parse u <;> simp [hp, bind, Except.bind, pure, Except.pure] at h
    exact h.symm

theorem forceNum_name {T : PText} {r s : PLine} (h : r.forceNum T = .ok s) : s.name = r.name := by
  unfold PLine.forceNum at h
  cases hn : T.number r.value <;> simp [hn, bind, Except.bind, pure, Except.pure] at h
  rw [← h]

theorem force_name {T : PText} {r s : PLine} (h : r.force T = .ok s) : s.name = r.name := by
  unfold PLine.force at h
  split at h
  · rw [← Except.ok.inj h]
  · exact forceNum_name h

theorem mapM_perm {α β : Type} {f : α → Except PyErr β} {e₀ : PyErr} (hf : ∀ a e, f a = .error e → e = e₀) {l l' : List α}
    (h : l.Perm l') : ExRel List.Perm (l.mapM f) (l'.mapM f) := by
  have herr : ∀ (l : List α) e, l.mapM f = .error e → e = e₀ := by
    intro l
    induction l with
    | nil => intro e he; simp [pure, Except.pure] at he
    | cons a l ih =>
      intro e he
      rw [List.mapM_cons] at he
      cases ha : f a with
      | error e' =>
        rw [ha] at he
        have : e' = e := by simpa [bind, Except.bind] using he
        exact this ▸ hf a e' ha
      | ok b =>
        rw [ha] at he
        cases hl : l.mapM f with
        | error e' =>
          rw [hl] at he
          have : e' = e := by simpa [bind, Except.bind] using he
          exact this ▸ ih e' hl
        | ok bs => rw [hl] at he; simp [bind, Except.bind, pure, Except.pure] at he
  induction h with
  | nil => simp [ExRel, pure, Except.pure]
  | @cons a l l' _ ih =>
    simp only [List.mapM_cons]
    cases ha : f a with
    | error e => simp [ExRel, bind, Except.bind]
    | ok b =>
      cases hl : l.mapM f <;> cases hl' : l'.mapM f <;> rw [hl, hl'] at ih <;> simp only [ExRel] at ih
      · simp [ExRel, bind, Except.bind, ih]
      · simp only [ExRel, bind, Except.bind, pure, Except.pure]
        exact ih.cons b
  | swap a b l =>
    simp only [List.mapM_cons]
    cases ha : f a with
    | error e =>
      cases hb : f b with
      | error e' => simp [ExRel, bind, Except.bind, hf a e ha, hf b e' hb]
      | ok y => simp [ExRel, bind, Except.bind]
    | ok x =>
      cases hb : f b with
      | error e' => simp [ExRel, bind, Except.bind]
      | ok y =>
        cases hl : l.mapM f with
        | error e => simp [ExRel, bind, Except.bind]
        | ok xs =>
          simp only [ExRel, bind, Except.bind, pure, Except.pure]
          exact List.Perm.swap _ _ _
  | @trans l₁ l₂ l₃ _ _ ih1 ih2 =>
    cases h1 : l₁.mapM f <;> cases h2 : l₂.mapM f <;> cases h3 : l₃.mapM f <;> rw [h1, h2] at ih1 <;> rw [h2, h3] at ih2 <;>
      simp only [ExRel] at ih1 ih2 ⊢
    · exact ih1.trans ih2
    · exact ih1.trans ih2

theorem mapM_names {f : PLine → Except PyErr PLine} (hf : ∀ a b, f a = .ok b → b.name = a.name) {l c : List PLine} (h : l.mapM f = .ok c) :
    c.map (fun r => r.lower.name) = l.map fun r => lowerStr r.name := by
  induction l generalizing c with
  | nil => simp [pure, Except.pure] at h; subst h; rfl
  | cons a l ih =>
    rw [List.mapM_cons] at h
    cases ha : f a with
    | error e => rw [ha] at h; simp [bind, Except.bind] at h
    | ok b =>
      cases hl : l.mapM f with
      | error e => rw [ha, hl] at h; simp [bind, Except.bind] at h
      | ok bs =>
        rw [ha, hl] at h
        have : b :: bs = c := by simpa [bind, Except.bind, pure, Except.pure] using h
        subst this
        rw [List.map_cons, List.map_cons, ih hl]
        simp [PLine.lower, hf a b ha]

theorem getLine_perm {c c' : List PLine} (h : c.Perm c') (hn : (c.map fun r => r.lower.name).Nodup) (k : String) :
    getLine (c.map PLine.lower) k = getLine (c'.map PLine.lower) k := by
  unfold getLine
  have hp : (c.map PLine.lower).Perm (c'.map PLine.lower) := h.map _
  have hn' : ((c.map PLine.lower).map PLine.name).Nodup := by simpa [List.map_map, Function.comp_def] using hn
  generalize c.map PLine.lower = d at *
  generalize c'.map PLine.lower = d' at *
  have huniq : ∀ r ∈ d, ∀ s ∈ d, r.name = s.name → r = s := fun r hr s hs e => List.inj_on_of_nodup_map hn' hr hs e
  cases h1 : d.find? (fun r => decide (r.name = k)) with
  | none =>
    symm
    rw [List.find?_eq_none] at h1 ⊢
    exact fun x hx => h1 x (hp.mem_iff.2 hx)
  | some r =>
    cases h2 : d'.find? (fun r => decide (r.name = k)) with
    | none =>
      rw [List.find?_eq_none] at h2
      exact absurd (List.find?_some h1) (h2 r (hp.mem_iff.1 (List.mem_of_find?_eq_some h1)))
    | some s =>
      have e1 := List.find?_some h1
      have e2 := List.find?_some h2
      simp only [decide_eq_true_eq] at e1 e2
      rw [huniq r (List.mem_of_find?_eq_some h1) s (hp.mem_iff.2 (List.mem_of_find?_eq_some h2)) (e1.trans e2.symm)]

/-- No two rows have the same name, case ignored. -/
def Spec.Distinct (t : List PLine) : Prop := (t.map fun r => r.name.toList.map Char.toLower).Nodup

theorem distinct_lower {t : List PLine} (h : Spec.Distinct t) : (t.map fun r => lowerStr r.name).Nodup := by
  unfold Spec.Distinct at h
  have : (t.map fun r => lowerStr r.name) = (t.map fun r => r.name.toList.map Char.toLower).map String.ofList := by
    simp [List.map_map, Function.comp_def, lowerStr]
  rw [this]
  exact h.map (fun a b e => by simpa using congrArg String.toList e)

/-- C251. The order of the rows has no influence, neither in the contactor's table nor in the carbon's. -/
theorem c251_order (T : PText) (kw : PacKw) {con con' pac pac' : List PLine} (comp : List (String × List PCell))
    (hc : Spec.Distinct con) (hp : Spec.Distinct pac) (h1 : con.Perm con') (h2 : pac.Perm pac') :
    pacConstruct T kw con pac comp = pacConstruct T kw con' pac' comp := by
  refine construct_look T kw comp ?_ ?_
  · have := mapM_perm (f := PLine.force T) (fun a e h => force_err h) h1
    cases hl : con.mapM (PLine.force T) <;> cases hl' : con'.mapM (PLine.force T) <;> rw [hl, hl'] at this <;> simp only [ExRel] at this ⊢
    · exact this
    · exact fun k _ => getLine_perm this (by rw [mapM_names (fun a b h => force_name h) hl]; exact distinct_lower hc) k
  · have := mapM_perm (f := PLine.forceNum T) (fun a e h => forceNum_err h) h2
    cases hl : pac.mapM (PLine.forceNum T) <;> cases hl' : pac'.mapM (PLine.forceNum T) <;> rw [hl, hl'] at this <;>
      simp only [ExRel] at this ⊢
    · exact this
    · exact fun k _ => getLine_perm this (by rw [mapM_names (fun a b h => forceNum_name h) hl]; exact distinct_lower hp) k

theorem distinct_contactor (w : ℝ → String) (tu : String) (f : RPacForm) : Spec.Distinct (f.contactor w tu) ∧ Spec.Distinct f.carbon := by
  unfold Spec.Distinct
  simp only [RPacForm.contactor, RPacForm.carbon, List.map_cons, List.map_nil]
  decide

/-- C251 at work: the form's tables from the bottom up. -/
theorem c251_example : pacConstruct exText { nr := some 8 } (exForm.contactor exWrite "C") exForm.carbon exComps =
    pacConstruct exText { nr := some 8 } (exForm.contactor exWrite "C").reverse exForm.carbon.reverse exComps :=
  c251_order _ _ _ (distinct_contactor _ _ _).1 (distinct_contactor exWrite "C" _).2 (List.reverse_perm _).symm (List.reverse_perm _).symm

theorem mapM_insert {α β : Type} {f : α → Except PyErr β} {a : α} {b : β} (h : f a = .ok b) (l l' : List α) :
    ExRel (fun c c' => ∃ x y, c = x ++ b :: y ∧ c' = x ++ y) ((l ++ a :: l').mapM f) ((l ++ l').mapM f) := by
  rw [List.mapM_append, List.mapM_append, List.mapM_cons, h]
  cases hl : l.mapM f with
  | error e => simp [ExRel, bind, Except.bind]
  | ok x =>
    cases hl' : l'.mapM f with
    | error e => simp [ExRel, bind, Except.bind]
    | ok y =>
      simp only [ExRel, bind, Except.bind, pure, Except.pure]
      exact ⟨x, y, rfl, rfl⟩

theorem look_insert {ks : List String} {r : PLine} (hr : lowerStr r.name ∉ ks) (x y : List PLine) : LookEq ks (x ++ r :: y) (x ++ y) := by
  intro k hk
  unfold getLine
  have : ¬ (PLine.lower r).name = k := fun e => hr (by rw [← e] at hk; exact hk)
  simp [List.find?_append, this]

/-- C252, in full: a row with another name has no influence. -/
def C252 : Prop :=
  ∀ (T : PText) (kw : PacKw) (con₁ con₂ pac : List PLine) (comp : List (String × List PCell)) (r : PLine),
    (∀ k ∈ Spec.conNames, ¬ Spec.CaseSame r.name k) →
      pacConstruct T kw (con₁ ++ r :: con₂) pac comp = pacConstruct T kw (con₁ ++ con₂) pac comp

theorem names_lower : (∀ k ∈ Spec.conNames, lowerStr k = k) ∧ ∀ k ∈ Spec.pacNames, lowerStr k = k := by decide

/-- C252, as far as it holds: its value has to be a number, or a text that reads as one. -/
theorem c252_partial (T : PText) (kw : PacKw) (con₁ con₂ pac : List PLine) (comp : List (String × List PCell)) {r : PLine}
    (hr : ∀ k ∈ Spec.conNames, ¬ Spec.CaseSame r.name k) (hv : Spec.SameNumber T r.value r.value) :
    pacConstruct T kw (con₁ ++ r :: con₂) pac comp = pacConstruct T kw (con₁ ++ con₂) pac comp := by
  obtain ⟨x, hx, -⟩ := hv
  have hn : r.name ≠ "format" := fun e => hr "format" (by simp [Spec.conNames]) (by rw [e]; rfl)
  have hf : r.force T = .ok { r with value := .num x } := by
    unfold PLine.force PLine.forceNum
    rw [if_neg hn]
    rcases hx with hx | ⟨s, hx, hs⟩ <;> simp [PText.number, bind, Except.bind, pure, Except.pure, *]
  refine construct_look T kw comp ?_ ?_
  · have h := mapM_insert hf con₁ con₂
    cases hl : (con₁ ++ r :: con₂).mapM (PLine.force T) <;> cases hl' : (con₁ ++ con₂).mapM (PLine.force T) <;> rw [hl, hl'] at h <;>
      simp only [ExRel] at h ⊢
    · exact h
    · obtain ⟨a, b, rfl, rfl⟩ := h
      refine look_insert (fun hk => hr _ hk ?_) a b
      rw [← lowerStr_same]
      exact (names_lower.1 _ hk).symm
  · cases pac.mapM (PLine.forceNum T)
    · rfl
    · exact fun k _ => rfl

/-- C252. The same in the carbon's table. -/
theorem c252_carbon (T : PText) (kw : PacKw) (con pac₁ pac₂ : List PLine) (comp : List (String × List PCell)) {r : PLine}
    (hr : ∀ k ∈ Spec.pacNames, ¬ Spec.CaseSame r.name k) (hv : Spec.SameNumber T r.value r.value) :
    pacConstruct T kw con (pac₁ ++ r :: pac₂) comp = pacConstruct T kw con (pac₁ ++ pac₂) comp := by
  obtain ⟨x, hx, -⟩ := hv
  have hf : r.forceNum T = .ok { r with value := .num x } := by
    unfold PLine.forceNum
    rcases hx with hx | ⟨s, hx, hs⟩ <;> simp [PText.number, bind, Except.bind, pure, Except.pure, *]
  refine construct_look T kw comp ?_ ?_
  · cases con.mapM (PLine.force T)
    · rfl
    · exact fun k _ => rfl
  · have h := mapM_insert hf pac₁ pac₂
    cases hl : (pac₁ ++ r :: pac₂).mapM (PLine.forceNum T) <;> cases hl' : (pac₁ ++ pac₂).mapM (PLine.forceNum T) <;> rw [hl, hl'] at h <;>
      simp only [ExRel] at h ⊢
    · exact h
    · obtain ⟨a, b, rfl, rfl⟩ := h
      refine look_insert (fun hk => hr _ hk ?_) a b
      rw [← lowerStr_same]
      exact (names_lower.2 _ hk).symm

theorem exRow_other : ∀ k ∈ Spec.conNames, ¬ Spec.CaseSame "remarks" k := by
  unfold Spec.CaseSame Spec.conNames
  decide

/-- C252 is false: a row of remarks added to the form as it opens. -/
theorem c252_false : ¬ C252 := by
  intro h
  obtain ⟨b, -, hb⟩ := c253_example
  have h1 := h exText { nr := some 8 } [] (exForm.contactor exWrite "C") exForm.carbon exComps
    ⟨"remarks", .text "pilot plant", .num none⟩ exRow_other
  rw [List.nil_append, List.nil_append, hb, c250_text exText _ (r := ⟨"remarks", .text "pilot plant", .num none⟩) (s := "pilot plant") _ _
    (by simp) (by decide) rfl (by simp [exText])] at h1
  cases h1

/-- A row as in `c252_partial`. -/
example : Spec.SameNumber exText (.text "5") (.text "5") :=
  ⟨some 5, .inr ⟨"5", rfl, by simp [exText]⟩, .inr ⟨"5", rfl, by simp [exText]⟩⟩

/-! ### C253, defaults -/

/-- C253. Without a temperature 20 °C are taken, without `nr` eight points, and without `duration` the larger of the two residence times;
given ones are taken as they are. -/
theorem c253_defaults {T : PText} {kw : PacKw} {con pac : List PLine} {comp : List (String × List PCell)} {h : PacHead}
    (hh : pacConstruct T kw con pac comp = .ok h) :
    (kw.nr = none → h.nc = 8) ∧ (∀ n, kw.nr = some n → h.nc = n) ∧
    ((∀ r ∈ con, ¬ Spec.CaseSame r.name "temperature") → h.temp = some 20) ∧
    (∀ d, kw.duration = some d → h.duration = some d) ∧
    (kw.duration = none → ∀ a b, h.built.hrt = some a → h.built.crt = some b → h.duration = some (max a b)) := by
  unfold pacConstruct at hh
  cases h1 : con.mapM (PLine.force T) with
  | error e => simp [h1, bind, Except.bind] at hh
  | ok c =>
  cases h2 : pac.mapM (PLine.forceNum T) with
  | error e => simp [h1, h2, bind, Except.bind] at hh
  | ok p =>
  cases h3 : comp.mapM (forceComp T) with
  | error e => simp [h1, h2, h3, bind, Except.bind] at hh
  | ok cm =>
  cases h4 : pacUnit pacTime (kw.timeType.getD "min") with
  | error e => simp [h1, h2, h3, h4, bind, Except.bind] at hh
  | ok tm =>
  cases h5 : pacRows T (c.map PLine.lower) (p.map PLine.lower) with
  | error e => simp [h1, h2, h3, h4, h5, bind, Except.bind] at hh
  | ok i =>
  cases h6 : pacBuild i with
  | error e => simp [h1, h2, h3, h4, h5, h6, bind, Except.bind] at hh
  | ok b =>
  cases h7 : convArray cm with
  | error e => simp [h1, h2, h3, h4, h5, h6, h7, bind, Except.bind] at hh
  | ok cv =>
  simp only [h1, h2, h3, h4, h5, h6, h7, bind, Except.bind, pure, Except.pure, Except.ok.injEq] at hh
  subst hh
  refine ⟨fun e => by simp [e], fun n e => by simp [e], fun ht => ?_, fun d e => by simp [e], fun e a b' ha hb => ?_⟩
  · have : getLine (c.map PLine.lower) "temperature" = none := by
      unfold getLine
      rw [List.find?_eq_none]
      intro r hr
      simp only [decide_eq_true_eq]
      intro e
      have hmem : "temperature" ∈ c.map fun r => r.lower.name := by
        obtain ⟨s, hs, rfl⟩ := List.mem_map.1 hr
        exact List.mem_map.2 ⟨s, hs, e⟩
      rw [mapM_names (fun a b h => force_name h) h1] at hmem
      obtain ⟨s, hs, hs'⟩ := List.mem_map.1 hmem
      refine ht s hs (lowerStr_same.1 ?_)
      rw [hs']
      decide
    simp [this]
  · simp only [e, Option.map_none, Option.getD_none]
    simp only at ha hb
    simp [nmax, ha, hb]

/-- C253. An unknown time unit ends the construction. -/
theorem c253_time (T : PText) (kw : PacKw) (con pac : List PLine) (comp : List (String × List PCell)) {t : String}
    (ht : t ∉ ["min", "mins", "hr", "hrs", "day", "days", "s", "sec", "secs"]) (h : PacHead) :
    pacConstruct T { kw with timeType := some t } con pac comp ≠ .ok h := by
  have hu : pacUnit pacTime t = .error .keyError := by
    have : pacTime.lookup t = none := by
      rw [List.lookup_eq_none_iff]
      simp only [List.mem_cons, List.not_mem_nil, or_false, not_or] at ht
      obtain ⟨a, b, c, d, e, f, g, i, j⟩ := ht
      simp [pacTime, a, b, c, d, e, f, g, i, j]
    simp [pacUnit, this]
  unfold pacConstruct
  cases h1 : con.mapM (PLine.force T) <;> cases h2 : pac.mapM (PLine.forceNum T) <;> cases h3 : comp.mapM (forceComp T) <;>
    simp [hu, bind, Except.bind]

/-- C253. Which of the known time units is asked for has no influence on what is built but for the factor kept with it. -/
theorem c253_known (T : PText) (kw : PacKw) (con pac : List PLine) (comp : List (String × List PCell)) {t t' : String}
    (ht' : t' ∈ ["min", "mins", "hr", "hrs", "day", "days", "s", "sec", "secs"]) {h : PacHead}
    (hh : pacConstruct T { kw with timeType := some t } con pac comp = .ok h) :
    ∃ x, pacConstruct T { kw with timeType := some t' } con pac comp = .ok { h with tMult := x } := by
  have hu : ∃ x, pacUnit pacTime t' = .ok x := by
    simp only [List.mem_cons, List.not_mem_nil, or_false] at ht'
    rcases ht' with rfl | rfl | rfl | rfl | rfl | rfl | rfl | rfl | rfl <;> exact ⟨_, rfl⟩
  obtain ⟨x, hx⟩ := hu
  refine ⟨x, ?_⟩
  unfold pacConstruct at hh ⊢
  cases h1 : con.mapM (PLine.force T) with
  | error e => simp [h1, bind, Except.bind] at hh
  | ok c =>
  cases h2 : pac.mapM (PLine.forceNum T) with
  | error e => simp [h1, h2, bind, Except.bind] at hh
  | ok p =>
  cases h3 : comp.mapM (forceComp T) with
  | error e => simp [h1, h2, h3, bind, Except.bind] at hh
  | ok cm =>
  cases h4 : pacUnit pacTime t with
  | error e => simp [h1, h2, h3, h4, bind, Except.bind] at hh
  | ok tm =>
  cases h5 : pacRows T (c.map PLine.lower) (p.map PLine.lower) with
  | error e => simp [h1, h2, h3, h4, h5, bind, Except.bind] at hh
  | ok i =>
  cases h6 : pacBuild i with
  | error e => simp [h1, h2, h3, h4, h5, h6, bind, Except.bind] at hh
  | ok b =>
  cases h7 : convArray cm with
  | error e => simp [h1, h2, h3, h4, h5, h6, h7, bind, Except.bind] at hh
  | ok cv =>
  simp only [h1, h2, h3, h4, h5, h6, h7, bind, Except.bind, pure, Except.pure, Except.ok.injEq, Option.getD_some] at hh
  subst hh
  simp only [hx, h5, h6, h7, bind, Except.bind, pure, Except.pure, Option.getD_some]

/-! ### C254 -/

/-- A cell holds a number, as a number or as a text. -/
def Spec.Holds (T : PText) (c : PCell) (x : Option ℝ) : Prop := c = .num x ∨ ∃ s, c = .text s ∧ T.parse s = some x

/-- `o` is the number in the row `k` of a table, if there is such a row in any case. -/
def Spec.NumberIn (T : PText) (t : List PLine) (k : String) (o : Option (Option ℝ)) : Prop :=
  (∀ r ∈ t, Spec.CaseSame r.name k → ∃ x, o = some x ∧ Spec.Holds T r.value x) ∧ ((∀ r ∈ t, ¬ Spec.CaseSame r.name k) → o = none)

/-- The same with units. -/
def Spec.MeasureIn (T : PText) (t : List PLine) (k : String) (o : Option PacRow) : Prop :=
  (∀ r ∈ t, Spec.CaseSame r.name k → ∃ x u, o = some (x, u) ∧ Spec.Holds T r.value x ∧ r.units = .text u) ∧
    ((∀ r ∈ t, ¬ Spec.CaseSame r.name k) → o = none)

/-- The inputs are those in the tables. -/
structure Spec.PacReads (T : PText) (con pac : List PLine) (i : PacIn) : Prop where
  density : Spec.NumberIn T pac "density" i.density
  porosity : Spec.NumberIn T pac "porosity" i.porosity
  radius : Spec.MeasureIn T pac "radius" i.radius
  length : Spec.MeasureIn T con "length/diameter" i.length
  aspect : Spec.NumberIn T con "aspect ratio" i.aspect
  height : Spec.MeasureIn T con "height" i.height
  volume : Spec.MeasureIn T con "volume" i.volume
  flow : Spec.MeasureIn T con "flow" i.flow
  hrt : Spec.MeasureIn T con "hrt" i.hrt
  crt : Spec.MeasureIn T con "crt" i.crt
  dosage : Spec.NumberIn T con "pac dosage" i.dosage
  format : ∀ r ∈ con, r.name = "format" → ∀ s, r.value = .text s → i.format = some s
  square : (∀ r ∈ con, ¬ Spec.CaseSame r.name "format") → i.format = none

theorem mapM_both {α β : Type} {f : α → Except PyErr β} {l : List α} {c : List β} (h : l.mapM f = .ok c) :
    (∀ a ∈ l, ∃ b ∈ c, f a = .ok b) ∧ ∀ b ∈ c, ∃ a ∈ l, f a = .ok b := by
  induction l generalizing c with
  | nil => simp [pure, Except.pure] at h; subst h; simp
  | cons a l ih =>
    rw [List.mapM_cons] at h
    cases ha : f a with
    | error e => rw [ha] at h; simp [bind, Except.bind] at h
    | ok b =>
      cases hl : l.mapM f with
      | error e => rw [ha, hl] at h; simp [bind, Except.bind] at h
      | ok bs =>
        rw [ha, hl] at h
        have : b :: bs = c := by simpa [bind, Except.bind, pure, Except.pure] using h
        subst this
        obtain ⟨i1, i2⟩ := ih hl
        constructor
        · intro x hx
          rcases List.mem_cons.1 hx with rfl | hx
          · exact ⟨b, by simp, ha⟩
          · obtain ⟨y, hy, hxy⟩ := i1 x hx
            exact ⟨y, by simp [hy], hxy⟩
        · intro y hy
          rcases List.mem_cons.1 hy with rfl | hy
          · exact ⟨a, by simp, ha⟩
          · obtain ⟨x, hx, hxy⟩ := i2 y hy
            exact ⟨x, by simp [hx], hxy⟩

/-- The row found by a name. -/
theorem found {f : PLine → Except PyErr PLine} (hf : ∀ a b, f a = .ok b → b.name = a.name) {t c : List PLine} (hd : Spec.Distinct t)
    (h : t.mapM f = .ok c) {k : String} (hk : lowerStr k = k) :
    (∀ r ∈ t, Spec.CaseSame r.name k → ∃ b, f r = .ok b ∧ getLine (c.map PLine.lower) k = some b.lower) ∧
    ((∀ r ∈ t, ¬ Spec.CaseSame r.name k) → getLine (c.map PLine.lower) k = none) := by
  obtain ⟨m1, m2⟩ := mapM_both h
  have hn : (c.map fun r => r.lower.name).Nodup := by rw [mapM_names hf h]; exact distinct_lower hd
  constructor
  · intro r hr hrk
    obtain ⟨b, hb, hrb⟩ := m1 r hr
    refine ⟨b, hrb, ?_⟩
    have hbk : b.lower.name = k := by
      show lowerStr b.name = k
      rw [hf _ _ hrb, lowerStr_same.2 hrk, hk]
    unfold getLine
    cases hfd : (c.map PLine.lower).find? (fun r => decide (r.name = k)) with
    | none =>
      rw [List.find?_eq_none] at hfd
      exact absurd (by simpa using hbk) (hfd b.lower (List.mem_map_of_mem hb))
    | some d =>
      have e := List.find?_some hfd
      simp only [decide_eq_true_eq] at e
      obtain ⟨d', hd', rfl⟩ := List.mem_map.1 (List.mem_of_find?_eq_some hfd)
      have : d' = b := List.inj_on_of_nodup_map hn hd' hb (e.trans hbk.symm)
      rw [this]
  · intro hno
    unfold getLine
    rw [List.find?_eq_none]
    intro d hd'
    simp only [decide_eq_true_eq]
    intro e
    obtain ⟨b, hb, rfl⟩ := List.mem_map.1 hd'
    obtain ⟨a, ha, hab⟩ := m2 b hb
    refine hno a ha (lowerStr_same.1 ?_)
    rw [hk, ← e]
    show lowerStr a.name = lowerStr b.name
    rw [hf _ _ hab]

theorem forceNum_holds {T : PText} {r b : PLine} (h : r.forceNum T = .ok b) :
    ∃ x, b = { r with value := .num x } ∧ Spec.Holds T r.value x := by
  unfold PLine.forceNum at h
  cases hn : T.number r.value with
  | error e => simp [hn, bind, Except.bind] at h
  | ok x =>
    simp only [hn, bind, Except.bind, pure, Except.pure, Except.ok.injEq] at h
    refine ⟨x, h.symm, ?_⟩
    unfold PText.number at hn
    cases hv : r.value with
    | num y => rw [hv] at hn; exact .inl (by rw [Except.ok.inj hn])
    | text s =>
      rw [hv] at hn
      cases hp : T.parse s with
      | none => simp [hp] at hn
      | some y =>
        simp only [hp, Except.ok.injEq] at hn
        exact .inr ⟨s, rfl, by rw [hp, hn]⟩

theorem number_in {T : PText} {f : PLine → Except PyErr PLine} (hf : ∀ a b, f a = .ok b → b.name = a.name) {t c : List PLine}
    (hd : Spec.Distinct t) (h : t.mapM f = .ok c) {k : String} (hk : lowerStr k = k)
    (hfk : ∀ r b, Spec.CaseSame r.name k → f r = .ok b → ∃ x, b = { r with value := .num x } ∧ Spec.Holds T r.value x) :
    Spec.NumberIn T t k ((getLine (c.map PLine.lower) k).map PLine.val) := by
  obtain ⟨f1, f2⟩ := found hf hd h hk
  refine ⟨fun r hr hrk => ?_, fun hno => by rw [f2 hno]; rfl⟩
  obtain ⟨b, hb, hg⟩ := f1 r hr hrk
  obtain ⟨x, rfl, hx⟩ := hfk r b hrk hb
  exact ⟨x, by rw [hg]; rfl, hx⟩

theorem measure_in {T : PText} {f : PLine → Except PyErr PLine} (hf : ∀ a b, f a = .ok b → b.name = a.name) {t c : List PLine}
    (hd : Spec.Distinct t) (h : t.mapM f = .ok c) {k : String} (hk : lowerStr k = k)
    (hfk : ∀ r b, Spec.CaseSame r.name k → f r = .ok b → ∃ x, b = { r with value := .num x } ∧ Spec.Holds T r.value x)
    {o : Option PacRow} (ho : rowOf (c.map PLine.lower) k = .ok o) : Spec.MeasureIn T t k o := by
  obtain ⟨f1, f2⟩ := found hf hd h hk
  unfold rowOf at ho
  refine ⟨fun r hr hrk => ?_, fun hno => ?_⟩
  · obtain ⟨b, hb, hg⟩ := f1 r hr hrk
    obtain ⟨x, rfl, hx⟩ := hfk r b hrk hb
    rw [hg] at ho
    cases hu : r.units with
    | num y => simp [PLine.row, PLine.lower, hu, bind, Except.bind] at ho
    | text u =>
      simp only [PLine.row, PLine.lower, PLine.val, hu, bind, Except.bind, pure, Except.pure, Except.ok.injEq] at ho
      exact ⟨x, u, ho.symm, hx, rfl⟩
  · rw [f2 hno] at ho
    exact (Except.ok.inj ho).symm

/-- C254. Whenever the construction succeeds, what is built is built from the entries of the tables: each from the row of its name in any
case, or missing when there is none. -/
theorem c254_reads {T : PText} {kw : PacKw} {con pac : List PLine} {comp : List (String × List PCell)} {h : PacHead}
    (hc : Spec.Distinct con) (hp : Spec.Distinct pac) (hh : pacConstruct T kw con pac comp = .ok h) :
    ∃ i, Spec.PacReads T con pac i ∧ pacBuild i = .ok h.built ∧
      (∀ r ∈ con, Spec.CaseSame r.name "temperature" → Spec.Holds T r.value h.temp) := by
  unfold pacConstruct at hh
  cases h1 : con.mapM (PLine.force T) with
  | error e => simp [h1, bind, Except.bind] at hh
  | ok c =>
  cases h2 : pac.mapM (PLine.forceNum T) with
  | error e => simp [h1, h2, bind, Except.bind] at hh
  | ok p =>
  cases h3 : comp.mapM (forceComp T) with
  | error e => simp [h1, h2, h3, bind, Except.bind] at hh
  | ok cm =>
  cases h4 : pacUnit pacTime (kw.timeType.getD "min") with
  | error e => simp [h1, h2, h3, h4, bind, Except.bind] at hh
  | ok tm =>
  cases h5 : pacRows T (c.map PLine.lower) (p.map PLine.lower) with
  | error e => simp [h1, h2, h3, h4, h5, bind, Except.bind] at hh
  | ok i =>
  cases h6 : pacBuild i with
  | error e => simp [h1, h2, h3, h4, h5, h6, bind, Except.bind] at hh
  | ok b =>
  cases h7 : convArray cm with
  | error e => simp [h1, h2, h3, h4, h5, h6, h7, bind, Except.bind] at hh
  | ok cv =>
  simp only [h1, h2, h3, h4, h5, h6, h7, bind, Except.bind, pure, Except.pure, Except.ok.injEq] at hh
  subst hh
  have hnum : ∀ k : String, k ≠ "format" → lowerStr k = k → ∀ r b, Spec.CaseSame r.name k → PLine.force T r = .ok b →
      ∃ x, b = { r with value := .num x } ∧ Spec.Holds T r.value x := by
    intro k hk hk' r b hr hb
    unfold PLine.force at hb
    have hne : r.name ≠ "format" := by
      intro e
      rw [e] at hr
      have := lowerStr_same.2 hr
      rw [hk', show lowerStr "format" = "format" by decide] at this
      exact hk this.symm
    rw [if_neg hne] at hb
    exact forceNum_holds hb
  have hnum' : ∀ k : String, ∀ r b, Spec.CaseSame r.name k → PLine.forceNum T r = .ok b →
      ∃ x, b = { r with value := .num x } ∧ Spec.Holds T r.value x := fun k r b _ hb => forceNum_holds hb
  have F := fun a b => force_name (T := T) (r := a) (s := b)
  have G := fun a b => forceNum_name (T := T) (r := a) (s := b)
  have NC := fun k (hk : k ≠ "format") (hk' : lowerStr k = k) => number_in (T := T) F hc h1 hk' (hnum k hk hk')
  have MC := fun k (hk : k ≠ "format") (hk' : lowerStr k = k) {o} => measure_in (T := T) F hc h1 hk' (hnum k hk hk') (o := o)
  have NP := fun k (hk' : lowerStr k = k) => number_in (T := T) G hp h2 hk' (hnum' k)
  have MP := fun k (hk' : lowerStr k = k) {o} => measure_in (T := T) G hp h2 hk' (hnum' k) (o := o)
  refine ⟨i, ?_, h6, ?_⟩
  · unfold pacRows at h5
    cases r1 : rowOf (p.map PLine.lower) "radius" with
    | error e => simp [r1, bind, Except.bind] at h5
    | ok x1 =>
    cases r2 : rowOf (c.map PLine.lower) "length/diameter" with
    | error e => simp [r1, r2, bind, Except.bind] at h5
    | ok x2 =>
    cases r3 : rowOf (c.map PLine.lower) "height" with
    | error e => simp [r1, r2, r3, bind, Except.bind] at h5
    | ok x3 =>
    cases r4 : rowOf (c.map PLine.lower) "volume" with
    | error e => simp [r1, r2, r3, r4, bind, Except.bind] at h5
    | ok x4 =>
    cases r5 : rowOf (c.map PLine.lower) "flow" with
    | error e => simp [r1, r2, r3, r4, r5, bind, Except.bind] at h5
    | ok x5 =>
    cases r6 : rowOf (c.map PLine.lower) "hrt" with
    | error e => simp [r1, r2, r3, r4, r5, r6, bind, Except.bind] at h5
    | ok x6 =>
    cases r7 : rowOf (c.map PLine.lower) "crt" with
    | error e => simp [r1, r2, r3, r4, r5, r6, r7, bind, Except.bind] at h5
    | ok x7 =>
    simp only [r1, r2, r3, r4, r5, r6, r7, bind, Except.bind, pure, Except.pure, Except.ok.injEq] at h5
    subst h5
    obtain ⟨f1, f2⟩ := found F hc h1 (k := "format") (by decide)
    exact
      { density := NP _ (by decide)
        porosity := NP _ (by decide)
        radius := MP _ (by decide) r1
        length := MC _ (by decide) (by decide) r2
        aspect := NC _ (by decide) (by decide)
        height := MC _ (by decide) (by decide) r3
        volume := MC _ (by decide) (by decide) r4
        flow := MC _ (by decide) (by decide) r5
        hrt := MC _ (by decide) (by decide) r6
        crt := MC _ (by decide) (by decide) r7
        dosage := NC _ (by decide) (by decide)
        format := by
          intro r hr hn s hs
          obtain ⟨b, hb, hg⟩ := f1 r hr (by rw [hn]; rfl)
          unfold PLine.force at hb
          rw [if_pos hn] at hb
          have := Except.ok.inj hb
          subst this
          show (getLine (c.map PLine.lower) "format").map _ = _
          rw [hg]
          simp [PLine.lower, PText.write, hs]
        square := by
          intro hno
          show (getLine (c.map PLine.lower) "format").map _ = _
          rw [f2 hno]; rfl }
  · intro r hr hrt
    obtain ⟨x, hx, hx'⟩ := (NC "temperature" (by decide) (by decide)).1 r hr hrt
    simp only [hx, Option.getD_some]
    exact hx'

/-- The form's tables meet what C254 asks. -/
theorem c254_example : ∃ h, Spec.Distinct (exForm.contactor exWrite "C") ∧ Spec.Distinct exForm.carbon ∧
    pacConstruct exText { nr := some 8 } (exForm.contactor exWrite "C") exForm.carbon exComps = .ok h := by
  obtain ⟨b, -, hb⟩ := c253_example
  exact ⟨_, (distinct_contactor _ _ _).1, (distinct_contactor exWrite "C" _).2, hb⟩

end WTM
