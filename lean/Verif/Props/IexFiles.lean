import Mathlib.Tactic
import Verif.Props.IexIons
import Verif.Props.IexParams
import Verif.Model.IexFiles

/-! C201-C204: reading and saving of the batch models, the command line, the resin volume of a batch sheet and the
numbers in saved files. -/
set_option autoImplicit false
namespace WTM
noncomputable section

variable {ions : List Ion} {data c0 : Columns} {u : Option String} {p : String} {ts : List ℝ}

/-- A way to ask for concentrations: nothing, for the unit of each ion, or an accepted unit. -/
def Spec.ConcUnit (u : Option String) : Prop := ∀ x, u = some x → x ∈ Spec.accepted .conc

/-- What a saved table has to be: one column per ion, in order, labelled with its unit, and each concentration in
meq/L divided by the number of meq in that unit. -/
def Spec.SavedConc (ions : List Ion) (u : Option String) (data out : Columns) : Prop :=
  out.length = data.length ∧ ∀ i ∈ ions, ∀ l, column data i.name = some l →
    ∃ s, Spec.meqSize i.mw i.valence (u.getD i.units) = some s ∧
      (i.name ++ " (" ++ u.getD i.units ++ "/L)", l.map fun x => x / s) ∈ out

theorem saveConc_scale (h : GoodIons ions) (hu : Spec.ConcUnit u) (hc : ∀ i ∈ ions, (column data i.name).isSome) :
    saveConc ions u data = .ok (scaleBy (facOf ions (fun _ => "meq") (fun i => u.getD i.units)) data) := by
  obtain ⟨hnd, hi⟩ := h
  refine convDatabase_eq (fun i h => ⟨(hi i h).1, (hi i h).2.1⟩) hnd (fun _ _ => by decide) (fun i h => ?_) hc
  rcases u with _ | x
  · exact (hi i h).2.2
  · exact hu x rfl

theorem find_self (hnd : (ions.map Ion.name).Nodup) {i : Ion} (hi : i ∈ ions) :
    ions.find? (fun j => decide (j.name = i.name)) = some i := by
  induction ions with
  | nil => cases hi
  | cons j is ih =>
    simp only [List.map_cons, List.nodup_cons] at hnd
    rw [List.find?_cons]
    rcases List.mem_cons.1 hi with rfl | hi
    · simp
    · have : j.name ≠ i.name := fun e => hnd.1 (e ▸ List.mem_map_of_mem hi)
      simp only [this, decide_false]
      exact ih hnd.2 hi

theorem savedConc_of (h : GoodIons ions) (hu : Spec.ConcUnit u) :
    Spec.SavedConc ions u data
      (labelCols ions u (scaleBy (facOf ions (fun _ => "meq") (fun i => u.getD i.units)) data)) := by
  obtain ⟨hnd, hi⟩ := h
  refine ⟨by simp [labelCols, scaleBy], fun i him l hl => ?_⟩
  obtain ⟨h1, h2, h3⟩ := hi i him
  have ht : u.getD i.units ∈ Spec.accepted .conc := by
    rcases u with _ | x
    · exact h3
    · exact hu x rfl
  obtain ⟨r, sa, sb, e1, e2, e3, -, p2, e4⟩ := c84_conc_exact i.mw i.valence h1 h2 (a := "meq") (by decide) ht []
  rw [show Spec.meqSize i.mw i.valence "meq" = some 1 from rfl] at e2
  cases e2
  have hf : facOf ions (fun _ => "meq") (fun i => u.getD i.units) i.name = 1 / sb := by
    rw [facOf_mem hnd him, ← e4]
    have := (ionFac_conv ⟨h1, h2⟩ (a := "meq") (by decide) ht []).1
    rw [e1, Except.ok.injEq] at this
    rw [this]
  refine ⟨sb, e3, ?_⟩
  unfold column at hl
  rcases hd : data.find? (fun p => decide (p.1 = i.name)) with _ | q
  · rw [hd] at hl; cases hl
  · rw [hd] at hl
    simp only [Option.map_some, Option.some.injEq] at hl
    have hq := List.mem_of_find?_eq_some hd
    have hn : q.1 = i.name := by simpa using List.find?_some hd
    refine List.mem_map.2 ⟨_, List.mem_map.2 ⟨q, hq, rfl⟩, ?_⟩
    simp only
    rw [hn, find_self hnd him]
    simp only [colLabel, hf, ← hl, Prod.mk.injEq, true_and]
    refine List.map_congr_left fun x _ => ?_
    rw [one_div, div_eq_inv_mul]

/-! ### C201 -/

/-- C201, full statement: `save_results` of the batch models takes the units of time that of the columns takes, gives
the times in that unit and the concentrations in the unit asked for. -/
def C201 : Prop := ∀ (ions : List Ion) (u : Option String) (p : String) (ts : List ℝ) (data : Columns), GoodIons ions →
  Spec.ConcUnit u → (∀ i ∈ ions, (column data i.name).isSome) → (∀ L v tb T, ∃ r, saveTime p L v tb T = .ok r) →
  ∃ out, saveBatch ions u p ts data = .ok out ∧ Spec.SavedConc ions u data out.2 ∧
    (∀ s, Spec.size .time p = some s → out.1 = ts.map fun t => t / (s : ℝ))

/-- C201 for units of time. Missing: bed volumes. -/
theorem c201_partial (h : GoodIons ions) (hu : Spec.ConcUnit u) (hc : ∀ i ∈ ions, (column data i.name).isSome)
    (hp : p ∈ Spec.accepted .time) : ∃ out s, saveBatch ions u p ts data = .ok out ∧ Spec.SavedConc ions u data out.2 ∧
      Spec.size .time p = some s ∧ 0 < s ∧ out.1 = ts.map fun t => t / (s : ℝ) := by
  obtain ⟨c, sa, sb, h1, h2, h3, h4, h5, -, h6⟩ :=
    c84_factor_correct .time (by decide) (a := "sec") (b := p) (by decide) hp []
  refine ⟨(ts.map fun t => t * c.factor, _), sb, ?_, savedConc_of (data := data) h hu, h3, h5, ?_⟩
  · unfold saveBatch
    rw [h1]
    simp only
    rw [saveConc_scale h hu hc]
    rfl
  · have h2' : sa = 1 := by
      have : Spec.size Simple.time.kind "sec" = some 1 := rfl
      rw [this] at h2; cases h2; rfl
    rw [h6 (by decide) hp, h2']
    refine List.map_congr_left fun t _ => ?_
    push_cast
    ring

/-- C201. Any other unit, bed volumes among them, ends the program. -/
theorem c201_other (hp : p ∉ Spec.accepted .time) : saveBatch ions u p ts data = .error .sysExit := by
  have h1 : coefOf timeTable p = none := by
    simp only [Spec.accepted, List.mem_cons, List.not_mem_nil, or_false, not_or] at hp
    obtain ⟨a1, a2, a3, a4, a5, a6, a7, a8, a9, a10, a11, a12⟩ := hp
    simp only [timeTable, coefOf, Ne.symm a1, Ne.symm a2, Ne.symm a3, Ne.symm a4, Ne.symm a5, Ne.symm a6, Ne.symm a7,
      Ne.symm a8, Ne.symm a9, Ne.symm a10, Ne.symm a11, Ne.symm a12, if_false]
  have h2 : Simple.time.conv "sec" p [] = .error .sysExit := by
    show convUnits timeTable "sec" p [] = _
    unfold convUnits
    rw [h1]
    rfl
  unfold saveBatch
  rw [h2]

theorem c201_false : ¬ C201 := by
  intro h
  obtain ⟨out, h1, -⟩ := h [] none "BV" [0, 1] [] ⟨by simp, by simp⟩ (fun _ h => by cases h) (by simp)
    (fun L v tb T => ⟨_, rfl⟩)
  rw [c201_other (by decide)] at h1
  cases h1

/-- C201. Saving the initial concentrations by default gives the numbers of the sheet back. -/
theorem c201_initial (h : GoodIons ions) (hc : ∀ i ∈ ions, (column c0 i.name).isSome) (hp : p ∈ Spec.accepted .time) :
    ∃ meq out, loadBatchIons ions c0 = .ok meq ∧ saveBatch ions none p ts meq = .ok out ∧
      out.2.map Prod.snd = c0.map Prod.snd ∧
      ∀ i ∈ ions, ∀ l, column c0 i.name = some l → (i.name ++ " (" ++ i.units ++ "/L)", l) ∈ out.2 := by
  obtain ⟨meq, h1, h2⟩ := c10_round_trip h hc
  obtain ⟨c, -, -, h3, -⟩ := c84_factor_correct .time (by decide) (a := "sec") (b := p) (by decide) hp []
  refine ⟨meq, (ts.map fun t => t * c.factor, labelCols ions none c0), h1, ?_, ?_, ?_⟩
  · unfold saveBatch
    rw [h3]
    simp only
    rw [h2]
  · simp only [labelCols, List.map_map]
    refine List.map_congr_left fun q _ => ?_
    simp only [Function.comp_apply]
    split <;> rfl
  · intro i him l hl
    unfold column at hl
    rcases hd : c0.find? (fun p => decide (p.1 = i.name)) with _ | q
    · rw [hd] at hl; cases hl
    · rw [hd] at hl
      simp only [Option.map_some, Option.some.injEq] at hl
      have hn : q.1 = i.name := by simpa using List.find?_some hd
      refine List.mem_map.2 ⟨q, List.mem_of_find?_eq_some hd, ?_⟩
      rw [hn, find_self h.1 him, hl]
      rfl

/-- Two ions, as in the examples of the package. -/
def fileIons : List Ion := [⟨"CHLORIDE", 35.45, 1, "mg", none, none⟩, ⟨"SULFATE", 96.06, 2, "ug", none, none⟩]

theorem fileIons_good : GoodIons fileIons := by
  refine ⟨by simp [fileIons], ?_⟩
  intro i hi
  simp only [fileIons, List.mem_cons, List.not_mem_nil, or_false] at hi
  rcases hi with rfl | rfl
  · exact ⟨by norm_num, by norm_num, by decide⟩
  · exact ⟨by norm_num, by norm_num, by decide⟩

theorem fileIons_cols (a b : List ℝ) : ∀ i ∈ fileIons, (column [("CHLORIDE", a), ("SULFATE", b)] i.name).isSome := by
  intro i hi
  simp only [fileIons, List.mem_cons, List.not_mem_nil, or_false] at hi
  rcases hi with rfl | rfl <;> simp [column]

example : ∃ meq out, loadBatchIons fileIons [("CHLORIDE", [100]), ("SULFATE", [50])] = .ok meq ∧
    saveBatch fileIons none "days" [0] meq = .ok out ∧ out.2.map Prod.snd = [[100], [50]] := by
  obtain ⟨meq, out, h1, h2, h3, -⟩ := c201_initial (p := "days") (ts := [0]) fileIons_good (fileIons_cols [100] [50]) (by decide)
  exact ⟨meq, out, h1, h2, h3⟩

/-! ### C202 -/

variable {run : String → Except PyErr Solved} {a : IxArgs} {s : Solved}

/-- An option as the user means it: an empty one is as good as none. -/
def Spec.Given (o : Option String) (x : Option String) : Prop :=
  (x = none ∧ (o = none ∨ o = some "")) ∨ (x = o ∧ ∃ y, o = some y ∧ y ≠ "")

theorem optArg_given (o : Option String) : Spec.Given o (optArg o) := by
  unfold optArg
  rcases o with _ | y
  · exact .inl ⟨rfl, .inl rfl⟩
  · by_cases h : y = ""
    · simp only [if_pos h]
      exact .inl ⟨rfl, .inr (by rw [h])⟩
    · simp only [if_neg h]
      exact .inr ⟨rfl, y, rfl, h⟩

theorem given_optArg {o x : Option String} (h : Spec.Given o x) : optArg o = x := by
  rcases h with ⟨rfl, rfl | rfl⟩ | ⟨rfl, y, rfl, hy⟩
  · rfl
  · rfl
  · unfold optArg
    simp only [if_neg hy]

theorem mapM_ok {f : ℝ → Except PyErr ℝ} {g : ℝ → ℝ} : ∀ {l : List ℝ}, (∀ t ∈ l, f t = .ok (g t)) →
    l.mapM f = .ok (l.map g)
  | [], _ => rfl
  | t :: l, h => by
    rw [List.mapM_cons, h t (by simp), mapM_ok fun t ht => h t (List.mem_cons_of_mem _ ht)]
    rfl

/-- C202. The command line runs the model named, and writes its result with times in the unit of `-t`, hours without,
and concentrations in the unit of `-c`, without in those of the input. -/
theorem c202_run {t c : Option String} (hm : a.mode = "hsdm" ∨ a.mode = "psdm") (hr : run a.mode = .ok s)
    (ht : Spec.Given a.tUnit t) (hc : Spec.Given a.cUnit c) (hp : t.getD "hours" ∈ Spec.accepted .time)
    (hu : Spec.ConcUnit c) (hg : GoodIons s.ions) (hcol : ∀ i ∈ s.ions, (column s.data i.name).isSome) :
    ∃ out z, runIxpy run a = .ok out ∧ Spec.size .time (t.getD "hours") = some z ∧ 0 < z ∧
      out.1 = s.ts.map (fun x => x * s.timeback / (z : ℝ)) ∧ Spec.SavedConc s.ions c s.data out.2 := by
  have hbv : t.getD "hours" ≠ "BV" := by rintro e; rw [e] at hp; revert hp; decide
  obtain ⟨z, r, h1, h2, -⟩ := c35_time hp hbv s.L s.v s.timeback 0
  refine ⟨(_, _), z, ?_, h1, h2, rfl, savedConc_of hg hu⟩
  unfold runIxpy
  rw [if_pos hm, hr, given_optArg ht, given_optArg hc]
  simp only
  unfold saveColumn
  rw [mapM_ok (g := fun x => x * s.timeback / (z : ℝ)) fun x _ => ?_]
  · simp only
    rw [saveConc_scale hg hu hcol]
    rfl
  · obtain ⟨z', r', k1, -, k3, k4⟩ := c35_time hp hbv s.L s.v s.timeback x
    rw [h1] at k1
    cases k1
    rw [k3, k4]

/-- C202. With `-t BV` the times are bed volumes. -/
theorem c202_bed_volumes {c : Option String} (hm : a.mode = "hsdm" ∨ a.mode = "psdm") (hr : run a.mode = .ok s)
    (ht : a.tUnit = some "BV") (hc : Spec.Given a.cUnit c) (hu : Spec.ConcUnit c) (hg : GoodIons s.ions)
    (hcol : ∀ i ∈ s.ions, (column s.data i.name).isSome) (hL : s.L ≠ 0) (hv : s.v ≠ 0) :
    ∃ out, runIxpy run a = .ok out ∧ out.1 = s.ts.map (fun x => x * s.timeback * s.v / s.L) ∧
      Spec.SavedConc s.ions c s.data out.2 := by
  refine ⟨(_, _), ?_, rfl, savedConc_of hg hu⟩
  unfold runIxpy
  rw [if_pos hm, hr, given_optArg hc]
  simp only [ht]
  rw [show (optArg (some "BV")).getD "hours" = "BV" from rfl]
  unfold saveColumn
  rw [mapM_ok (g := fun x => x * s.timeback * s.v / s.L) fun x _ => c35_bed_volumes _ _ _ x hL hv]
  simp only
  rw [saveConc_scale hg hu hcol]
  rfl

/-- C202. Another mode ends the program without running anything; an exception of the model ends it without a file. -/
theorem c202_mode (h : a.mode ≠ "hsdm") (h' : a.mode ≠ "psdm") : runIxpy run a = .error .sysExit := by
  unfold runIxpy
  rw [if_neg (by rintro (e | e) <;> contradiction)]

theorem c202_raise {e : PyErr} (hm : a.mode = "hsdm" ∨ a.mode = "psdm") (hr : run a.mode = .error e) :
    runIxpy run a = .error e := by
  unfold runIxpy
  rw [if_pos hm, hr]

/-- C202. Only the model named is run. -/
theorem c202_only {run' : String → Except PyErr Solved} (h : run a.mode = run' a.mode) : runIxpy run a = runIxpy run' a := by
  unfold runIxpy
  rw [h]

def fileSolved : Solved := ⟨fileIons, 100, 0.1, 1000, [0, 7.2], [("CHLORIDE", [1, 2]), ("SULFATE", [3, 4])]⟩

example : ∃ out, runIxpy (fun _ => .ok fileSolved) ⟨"psdm", none, some ""⟩ = .ok out ∧ out.1 = [0, 2] := by
  obtain ⟨out, z, h1, h2, -, h3, -⟩ := c202_run (run := fun _ => .ok fileSolved) (a := ⟨"psdm", none, some ""⟩) (t := none)
    (c := none) (.inr rfl) rfl (.inl ⟨rfl, .inl rfl⟩) (.inl ⟨rfl, .inr rfl⟩) (by decide) (fun _ h => by cases h)
    fileIons_good (fileIons_cols _ _)
  rw [show Spec.size .time (Option.getD none "hours") = some 3600 from rfl] at h2
  cases h2
  refine ⟨out, h1, ?_⟩
  rw [h3]
  norm_num [fileSolved]

/-! ### C203 -/

variable {sheet out : List Row} {ans : List String}

/-- A batch sheet: no velocity and no flow rate. -/
def Spec.BatchSheet (sheet : List Row) : Prop :=
  "v" ∉ sheet.map (fun r => lowerStr r.name) ∧ "flrt" ∉ sheet.map (fun r => lowerStr r.name)

/-- C203, full statement: the resin volume of a batch sheet is the one it gives; a sheet that gives the mass of the wet
resin, its water content and its density has the volume of the dry resin in litres. -/
def C203 : Prop := ∀ (sheet : List Row) (ans : List String), Spec.BatchSheet sheet →
  (∀ x, ⟨"VR", x, "L"⟩ ∈ sheet → ∀ out, convParamsData (sheet.filter fun r => lowerStr r.name ≠ "vr") ans = .ok out →
    ∃ out', convParamsData sheet ans = .ok out' ∧ getParam out' "VR" = some x) ∧
  (∀ out, convParamsData sheet ans = .ok out → ∃ w m rho, getParam out "w" = some w ∧ getParam out "m" = some m ∧
    getParam out "RHOP" = some rho ∧ getParam out "VR" = some ((1 - w) * (m / rho) / 1000))

/-- C203 for sheets that load. Missing: sheets with a volume, which do not. -/
theorem c203_partial (hb : Spec.BatchSheet sheet) (h : convParamsData sheet ans = .ok out) :
    ∃ w m rho, getParam out "w" = some w ∧ getParam out "m" = some m ∧
      getParam out "RHOP" = some rho ∧ getParam out "VR" = some ((1 - w) * (m / rho) / 1000) := by
  obtain ⟨rows, ans', extra, q, h1, h2, h3, hout, h5, h6⟩ := convParamsData_ok h
  obtain ⟨rows2, ans2, extra2, q2, g1, g2, -, -, g5⟩ := getParam_out h
  rw [h1] at g1
  cases g1
  rw [h2] at g2
  cases g2
  have e1 : getParam out "w" = _ := g5 "w" (by rw [knownNames_eq]; decide)
  have e2 : getParam out "m" = _ := g5 "m" (by rw [knownNames_eq]; decide)
  have e3 : getParam out "RHOP" = _ := g5 "rhop" (by rw [knownNames_eq]; decide)
  have hn : ∀ n, n ∉ sheet.map (fun r => lowerStr r.name) → findRow rows n = none := fun n hn => findRow_none (by
    rw [convParams_names h1]; simpa [List.map_map, Function.comp_def, Row.lower] using hn)
  have h2' := h2
  unfold extraRows at h2
  rw [hn "v" hb.1, hn "flrt" hb.2] at h2
  simp only at h2
  rcases hw : findRow rows "w" with _ | w
  · rw [hw] at h2; cases h2
  rcases hm : findRow rows "m" with _ | m
  · rw [hw, hm] at h2; cases h2
  rcases hr : findRow rows "rhop" with _ | rho
  · rw [hw, hm, hr] at h2; cases h2
  rw [hw, hm, hr] at h2
  simp only [Except.ok.injEq] at h2
  refine ⟨w.value, m.value, rho.value, ?_, ?_, ?_, ?_⟩
  · rw [e1, findRow_append, hw]; rfl
  · rw [e2, findRow_append, hm]; rfl
  · rw [e3, findRow_append, hr]; rfl
  · have hall : ∀ r ∈ rows ++ extra ++ [Row.mk "Q" q "meq/L"], r.name ∈ allNames := by
      intro r hr
      simp only [List.mem_append, List.mem_cons, List.not_mem_nil, or_false] at hr
      rcases hr with (hr | hr) | hr
      · exact List.mem_append_left _ (h5 r hr)
      · rcases extraRows_names h2' r hr with ⟨h, -⟩ | h
        · rw [h]; decide
        · rw [h]; decide
      · subst hr; show "Q" ∈ allNames; decide
    have hvr : rename "VR" = "VR" := by decide
    have hf := findRow_rename hall (n := "VR") (by decide)
    rw [hvr] at hf
    unfold getParam
    rw [hout, hf, findRow_append, findRow_append]
    have hno : findRow rows "VR" = none := by
      apply findRow_none
      intro hm
      obtain ⟨r, hr, hn⟩ := List.mem_map.1 hm
      have := h5 r hr
      rw [hn, knownNames_eq] at this
      revert this
      decide
    rw [hno, ← h2]
    simp only [findRow, Option.none_or, List.find?_cons, decide_true, Option.some_or, Option.map_some, Option.some.injEq]
    show (1 - w.value) * m.value / rho.value / 1.0e3 = _
    norm_num
    ring

/-- C203. A sheet with a volume is a `KeyError`, in a batch or not. -/
theorem c203_volume {r : Row} (hr : r ∈ sheet) (hn : lowerStr r.name = "vr")
    (hnd : (sheet.map fun r => lowerStr r.name).Nodup) : convParamsData sheet ans = .error .keyError := by
  unfold convParamsData
  simp only
  rw [if_neg, if_pos]
  · rw [List.any_eq_true]
    refine ⟨r.lower, List.mem_map_of_mem hr, ?_⟩
    show (paramEntry (lowerStr r.name)).isNone = true
    rw [hn]
    rfl
  · rw [not_not]
    simpa [List.map_map, Function.comp_def, Row.lower] using hnd

/-- C203. Without the mass, the water content or the density a batch sheet does not load. -/
theorem c203_needs (hb : Spec.BatchSheet sheet) {n : String} (hn : n = "w" ∨ n = "m" ∨ n = "rhop")
    (hs : n ∉ sheet.map fun r => lowerStr r.name) : ∃ e, convParamsData sheet ans = .error e := by
  rcases h : convParamsData sheet ans with e | out
  · exact ⟨e, rfl⟩
  · exfalso
    obtain ⟨rows, ans', extra, q, h1, h2, -⟩ := convParamsData_ok h
    have hno : ∀ n, n ∉ sheet.map (fun r => lowerStr r.name) → findRow rows n = none := fun n hn => findRow_none (by
      rw [convParams_names h1]; simpa [List.map_map, Function.comp_def, Row.lower] using hn)
    unfold extraRows at h2
    rw [hno "v" hb.1, hno "flrt" hb.2] at h2
    simp only at h2
    have hz := hno n hs
    rcases hn with rfl | rfl | rfl
    · rw [hz] at h2; cases h2
    · rw [hz] at h2
      rcases hw : findRow rows "w" <;> rw [hw] at h2 <;> cases h2
    · rw [hz] at h2
      rcases hw : findRow rows "w" <;> rcases hm : findRow rows "m" <;> rw [hw] at h2 <;> rw [hm] at h2 <;> cases h2

/-- A batch sheet of 2 kg of wet resin. -/
def batchSheet : List Row := [⟨"w", 0.5, ""⟩, ⟨"m", 2, "kg"⟩, ⟨"RHOP", 1, "g/ml"⟩, ⟨"Qm", 3, "meq/kg"⟩]

theorem batchSheet_low : batchSheet.map Row.lower = [⟨"w", 0.5, ""⟩, ⟨"m", 2, "kg"⟩, ⟨"rhop", 1, "g/ml"⟩, ⟨"qm", 3, "meq/kg"⟩] := by
  have e1 : lowerStr "w" = "w" := by decide
  have e2 : lowerStr "m" = "m" := by decide
  have e3 : lowerStr "RHOP" = "rhop" := by decide
  have e4 : lowerStr "Qm" = "qm" := by decide
  have e5 : lowerStr "" = "" := by decide
  have e6 : lowerStr "kg" = "kg" := by decide
  have e7 : lowerStr "g/ml" = "g/ml" := by decide
  have e8 : lowerStr "meq/kg" = "meq/kg" := by decide
  simp only [batchSheet, List.map_cons, List.map_nil, Row.lower, e1, e2, e3, e4, e5, e6, e7, e8]

theorem batchSheet_batch : Spec.BatchSheet batchSheet := by
  have h : batchSheet.map (fun r => lowerStr r.name) = (batchSheet.map Row.lower).map Row.name := by
    simp [List.map_map, Function.comp_def, Row.lower]
  unfold Spec.BatchSheet
  rw [h, batchSheet_low]
  simp

theorem batchSheet_loads : ∃ out, convParamsData batchSheet [] = .ok out := by
  have hacc : ∀ r ∈ batchSheet.map Row.lower, ∃ fn t, paramEntry r.name = some (fn, t) ∧ fn.Accepts r.units := by
    rw [batchSheet_low]
    intro r hr
    simp only [List.mem_cons, List.not_mem_nil, or_false] at hr
    rcases hr with rfl | rfl | rfl | rfl
    · exact ⟨_, _, rfl, trivial⟩
    · exact ⟨_, _, rfl, by show _ ∈ Spec.accepted _; decide⟩
    · exact ⟨_, _, rfl, "g", "ml", by simp [Compound.num, Simple.kind, Spec.accepted],
        by simp [Compound.den, Simple.kind, Spec.accepted], Or.inl (by show "g/ml" = _; decide)⟩
    · exact ⟨_, _, rfl, "meq", "kg", by simp [Compound.num, Simple.kind, Spec.accepted],
        by simp [Compound.den, Simple.kind, Spec.accepted], Or.inl (by show "meq/kg" = _; decide)⟩
  obtain ⟨rows, h1, -⟩ := convParams_total hacc []
  have hn := convParams_names h1
  have hs : ∀ n, n ∈ ["w", "m", "rhop", "qm"] → ∃ r, findRow rows n = some r := by
    intro n h
    rw [← Option.isSome_iff_exists, findRow_isSome, hn, batchSheet_low]
    simpa using h
  have hv : ∀ n, n ∉ ["w", "m", "rhop", "qm"] → findRow rows n = none := by
    intro n h
    apply findRow_none
    rw [hn, batchSheet_low]
    simpa using h
  obtain ⟨w, hw⟩ := hs "w" (by decide)
  obtain ⟨m, hm⟩ := hs "m" (by decide)
  obtain ⟨rho, hr⟩ := hs "rhop" (by decide)
  obtain ⟨qm, hq⟩ := hs "qm" (by decide)
  refine ⟨(rows ++ [Row.mk "VR" ((1 - w.value) * m.value / rho.value / 1.0e3) "L"] ++
    [Row.mk "Q" (qm.value * rho.value) "meq/L"]).map Row.rename, ?_⟩
  · unfold convParamsData
    simp only
    rw [if_neg, if_neg]
    · rw [h1]
      simp only
      have hx : extraRows rows [] = .ok [⟨"VR", (1 - w.value) * m.value / rho.value / 1.0e3, "L"⟩] := by
        unfold extraRows
        rw [hv "v" (by decide), hv "flrt" (by decide), hw, hm, hr]
      rw [hx]
      simp only
      have hqc : qCalc (fun n => (findRow (rows ++ [⟨"VR", (1 - w.value) * m.value / rho.value / 1.0e3, "L"⟩]) n).map Row.value) =
          .ok (qm.value * rho.value) := by
        unfold qCalc
        simp only [findRow_append, hq, hr, Option.some_or, Option.map_some]
      rw [hqc]
    · simp only [List.any_eq_true, not_exists, not_and]
      intro r hr
      obtain ⟨fn, t, h, -⟩ := hacc r hr
      rw [h]; simp
    · rw [batchSheet_low]
      simp

example : ∃ out w m rho, convParamsData batchSheet [] = .ok out ∧ getParam out "w" = some w ∧ getParam out "m" = some m ∧
    getParam out "RHOP" = some rho ∧ getParam out "VR" = some ((1 - w) * (m / rho) / 1000) := by
  obtain ⟨out, h⟩ := batchSheet_loads
  obtain ⟨w, m, rho, h1⟩ := c203_partial batchSheet_batch h
  exact ⟨out, w, m, rho, h, h1⟩

theorem c203_false : ¬ C203 := by
  intro h
  have hl : lowerStr "VR" = "vr" := by decide
  have hmap : ∀ x : Row, (x :: batchSheet).map (fun r => lowerStr r.name) =
      lowerStr x.name :: (batchSheet.map Row.lower).map Row.name := by
    intro x
    simp [List.map_map, Function.comp_def, Row.lower]
  have hb : Spec.BatchSheet (⟨"VR", 1, "L"⟩ :: batchSheet) := by
    unfold Spec.BatchSheet
    rw [hmap, batchSheet_low, hl]
    simp
  have hf : (⟨"VR", 1, "L"⟩ :: batchSheet).filter (fun r => decide (lowerStr r.name ≠ "vr")) = batchSheet := by
    rw [List.filter_cons_of_neg (by simp [hl]), List.filter_eq_self]
    intro r hr
    have : r.lower ∈ batchSheet.map Row.lower := List.mem_map_of_mem hr
    rw [batchSheet_low] at this
    have hn : lowerStr r.name ∈ ["w", "m", "rhop", "qm"] := by
      have := List.mem_map_of_mem (f := Row.name) this
      simpa [Row.lower] using this
    simp only [decide_eq_true_eq]
    intro e
    rw [e] at hn
    revert hn
    decide
  obtain ⟨o, ho⟩ := batchSheet_loads
  obtain ⟨out', h1, -⟩ := (h (⟨"VR", 1, "L"⟩ :: batchSheet) [] hb).1 1 (by simp) o (by rw [hf]; exact ho)
  rw [c203_volume (r := ⟨"VR", 1, "L"⟩) (by simp) hl] at h1
  · cases h1
  · rw [hmap, batchSheet_low, hl]
    simp

/-! ### C204 -/

/-- C204, full statement: a positive concentration of the result is positive in the file, so that removals and ratios
can be computed from it. -/
def C204 : Prop := ∀ (t : List ℝ × Columns) (n : String) (l : List ℝ) (k : ℕ) (x : ℝ), column t.2 n = some l →
  l[k]? = some x → 0 < x → ∃ l' y, column (fileOf t).2 n = some l' ∧ l'[k]? = some y ∧ 0 < y

theorem fmt8_err (x : ℝ) : |fmt8 x - x| ≤ 5e-9 := by
  have h := abs_sub_round (x * 10 ^ 8)
  unfold fmt8
  rw [abs_le] at *
  constructor
  · rw [le_sub_iff_add_le, le_div_iff₀ (by norm_num)]
    norm_num at h ⊢
    linarith
  · rw [sub_le_iff_le_add, div_le_iff₀ (by norm_num)]
    norm_num at h ⊢
    linarith

theorem column_file (t : List ℝ × Columns) (n : String) :
    column (fileOf t).2 n = (column t.2 n).map fun l => l.map fmt8 := by
  unfold fileOf column
  rw [List.find?_map, Option.map_map, Option.map_map]
  rfl

/-- C204. Every entry of the file is within half a unit of the eighth decimal of the result, and of any two the order
is kept. -/
theorem c204_close {t : List ℝ × Columns} {n : String} {l : List ℝ} (h : column t.2 n = some l) :
    ∃ l', column (fileOf t).2 n = some l' ∧ l'.length = l.length ∧
      (∀ (k : ℕ) (x : ℝ), l[k]? = some x → ∃ y, l'[k]? = some y ∧ |y - x| ≤ 5e-9) ∧
      ∀ (j k : ℕ) (x x' : ℝ), l[j]? = some x → l[k]? = some x' → x ≤ x' → ∃ y y', l'[j]? = some y ∧ l'[k]? = some y' ∧ y ≤ y' := by
  refine ⟨l.map fmt8, by rw [column_file, h]; rfl, by simp, fun k x hx => ⟨fmt8 x, by simp [hx], fmt8_err x⟩,
    fun j k x x' hx hx' hle => ⟨fmt8 x, fmt8 x', by simp [hx], by simp [hx'], ?_⟩⟩
  unfold fmt8
  have : round (x * 10 ^ 8) ≤ round (x' * 10 ^ 8) := by
    rw [round_eq, round_eq]
    exact Int.floor_le_floor (by gcongr)
  have hc : ((round (x * 10 ^ 8) : ℤ) : ℝ) ≤ ((round (x' * 10 ^ 8) : ℤ) : ℝ) := by exact_mod_cast this
  gcongr

/-- C204 exactly where it holds: from half a unit of the eighth decimal on. -/
theorem c204_partial {t : List ℝ × Columns} {n : String} {l : List ℝ} {k : ℕ} {x : ℝ} (h : column t.2 n = some l)
    (hx : l[k]? = some x) :
    (∃ l' y, column (fileOf t).2 n = some l' ∧ l'[k]? = some y ∧ 0 < y) ↔ 5e-9 ≤ x := by
  have e : column (fileOf t).2 n = some (l.map fmt8) := by rw [column_file, h]; rfl
  have key : 0 < fmt8 x ↔ 5e-9 ≤ x := by
    unfold fmt8
    rw [div_pos_iff_of_pos_right (by norm_num), Int.cast_pos, round_eq, Int.floor_pos]
    constructor
    · intro h; norm_num at h ⊢; linarith
    · intro h; norm_num at h ⊢; linarith
  constructor
  · rintro ⟨l', y, h1, h2, h3⟩
    rw [e] at h1
    cases h1
    simp only [List.getElem?_map, hx, Option.map_some, Option.some.injEq] at h2
    rw [← h2] at h3
    exact key.1 h3
  · intro h
    exact ⟨_, _, e, by simp [hx], key.2 h⟩

/-- C204. The same for an influent: 2 ng/L of an ion of weight 500, saved in meq/L, is zero in the file; saved in ng/L
it is not. -/
theorem c204_trace : let i : Ion := ⟨"PFOS", 500, 1, "ng", none, none⟩
    ∃ meq, loadBatchIons [i] [("PFOS", [2])] = .ok meq ∧
    (∃ out, saveBatch [i] (some "meq") "days" [0] meq = .ok out ∧ column (fileOf out).2 "PFOS (meq/L)" = some [0]) ∧
    (∃ out, saveBatch [i] none "days" [0] meq = .ok out ∧ column (fileOf out).2 "PFOS (ng/L)" = some [2]) := by
  intro i
  have hg : GoodIons [i] := by
    refine ⟨by simp, ?_⟩
    intro j hj
    rw [List.mem_singleton] at hj
    rw [hj]
    exact ⟨by norm_num [i], by norm_num [i], by show "ng" ∈ _; decide⟩
  have hc : ∀ j ∈ [i], (column [("PFOS", [(2 : ℝ)])] j.name).isSome := by
    intro j hj
    rw [List.mem_singleton] at hj
    rw [hj]
    simp [column, i]
  have k1 : coefOf (concTable 500 1) "meq" = some 1 := by simp [coefOf, concTable]
  have k2 : coefOf (concTable 500 1) "ng" = some 500000000 := by
    simp only [coefOf, concTable]
    rw [if_neg (by decide), if_neg (by decide), if_neg (by decide), if_pos trivial]
    norm_num
  have hl : loadBatchIons [i] [("PFOS", [2])] = .ok [("PFOS", [4e-9])] := by
    unfold loadBatchIons
    rw [convDatabase_eq (fun j hj => ⟨(hg.2 j hj).1, (hg.2 j hj).2.1⟩) hg.1 (fun j hj => (hg.2 j hj).2.2)
      (fun _ _ => by decide) hc]
    simp only [scaleBy, facOf, i, ionFac, List.map_cons, List.map_nil, if_true, k1, k2, Option.getD_some]
    norm_num
  have hc2 : ∀ j ∈ [i], (column [("PFOS", [(4e-9 : ℝ)])] j.name).isSome := by
    intro j hj
    rw [List.mem_singleton] at hj
    rw [hj]
    simp [column, i]
  obtain ⟨c, -, -, h3, -⟩ := c84_factor_correct .time (by decide) (a := "sec") (b := "days") (by decide) (by decide) []
  refine ⟨_, hl, ⟨([0].map fun t => t * c.factor, [("PFOS (meq/L)", [4e-9])]), ?_, ?_⟩,
    ⟨([0].map fun t => t * c.factor, [("PFOS (ng/L)", [2])]), ?_, ?_⟩⟩
  · unfold saveBatch
    rw [h3]
    simp only
    rw [saveConc_scale hg (fun x hx => by cases hx; decide) hc2]
    simp only [scaleBy, facOf, i, ionFac, List.map_cons, List.map_nil, if_true, k1, labelCols,
      List.find?_cons, decide_true, Option.getD_some, colLabel]
    rw [show "PFOS" ++ " (" ++ "meq" ++ "/L)" = "PFOS (meq/L)" by decide]
    norm_num
  · rw [column_file]
    simp only [column, List.find?_cons, decide_true, Option.map_some, List.map_cons, List.map_nil]
    have : round ((4e-9 : ℝ) * 10 ^ 8) = 0 := by rw [round_eq, Int.floor_eq_zero_iff]; constructor <;> norm_num
    simp only [fmt8, this]
    norm_num
  · unfold saveBatch
    rw [h3]
    simp only
    rw [saveConc_scale hg (fun x hx => by cases hx) hc2]
    simp only [scaleBy, facOf, i, ionFac, List.map_cons, List.map_nil, if_true, k1, k2, labelCols,
      List.find?_cons, decide_true, Option.getD_none, Option.getD_some, colLabel]
    rw [show "PFOS" ++ " (" ++ "ng" ++ "/L)" = "PFOS (ng/L)" by decide]
    norm_num
  · rw [column_file]
    simp only [column, List.find?_cons, decide_true, Option.map_some, List.map_cons, List.map_nil]
    have : round ((2 : ℝ) * 10 ^ 8) = 200000000 := by
      rw [show ((2 : ℝ) * 10 ^ 8) = ((200000000 : ℤ) : ℝ) by norm_num, round_intCast]
    simp only [fmt8, this]
    norm_num

theorem c204_false : ¬ C204 := by
  intro h
  have := (c204_partial (t := ([], [("A", [(1e-9 : ℝ)])])) (n := "A") (l := [1e-9]) (k := 0) (x := 1e-9)
    (by simp [column]) rfl).1 (h ([], [("A", [1e-9])]) "A" [1e-9] 0 1e-9 (by simp [column]) rfl (by norm_num))
  norm_num at this

end
end WTM
