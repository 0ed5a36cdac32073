import Mathlib.Data.Real.Basic
import Mathlib.Analysis.SpecialFunctions.Trigonometric.Basic
import Verif.Model.Py
import Verif.Spec.Units

/-! Model of `IonExchangeModel/ixpy/paramsheets.py` lines 50-306 (unit conversion). -/
set_option autoImplicit false
namespace WTM
noncomputable section

/-- A unit table: `u_list` and `u_coef` of paramsheets.py zipped together (the number of such units
per base unit). -/
abbrev Table := List (String × ℝ)

/-- `u_list.index(u)` followed by indexing `u_coef`: paramsheets.py:69-70, 87-88 (first match). -/
def coefOf : Table → String → Option ℝ
  | [], _ => none
  | (n, c) :: t, u => if n = u then some c else coefOf t u

/-- What a converter returns: `(factor, u_in, u_out)` (paramsheets.py:100) plus the answers to
`input()` that have not been consumed. -/
structure Conv where
  factor : ℝ
  uIn : String
  uOut : String
  rest : List String

/-- The `while pos_assigned` loop, paramsheets.py:76-85: ask until an accepted unit is typed.
`answers` are the lines the user types; when they run out `input()` raises `EOFError`, which is not
caught by `except ValueError`. -/
def askUnit (t : Table) : List String → Except PyErr (String × ℝ × List String)
  | [] => .error .eofError
  | a :: as => match coefOf t a with
    | some c => .ok (a, c, as)
    | none => askUnit t as

/-- `conv_units`, paramsheets.py:50-100. Lines 95-98 build the matrix `coef[j]/coef[i]` and index it
at `[u_in_pos, u_out_pos]`. Messages are not modelled. -/
def convUnits (t : Table) (uIn uOut : String) (answers : List String) : Except PyErr Conv :=
  let src : Except PyErr (String × ℝ × List String) :=
    match coefOf t uIn with
    | some c => .ok (uIn, c, answers)
    | none => askUnit t answers
  match src with
  | .error e => .error e
  | .ok (u, cIn, rest) =>
    match coefOf t uOut with
    | none => .error .sysExit
    | some cOut => .ok ⟨cOut / cIn, u, uOut, rest⟩

/-- `conv_length` table, paramsheets.py:105-106. -/
def lengthTable : Table :=
  [("m", 1), ("cm", 100), ("mm", 1000), ("ft", 3.2808), ("in", 39.3701), ("um", 1.0e6)]

/-- `conv_volume` table, paramsheets.py:113-114. -/
def volumeTable : Table :=
  [("m3", 1), ("cm3", 1.0e6), ("ml", 1.0e6), ("L", 1.0e3), ("mm3", 1.0e9), ("gal", 264.172),
   ("ft3", 35.3147), ("in3", 61023.801579099), ("cuf", 35.3147), ("l", 1.0e3)]

/-- `conv_time` table, paramsheets.py:121-122. -/
def timeTable : Table :=
  [("days", 1), ("hours", 24), ("min", 24*60), ("sec", 24*60*60), ("m", 24*60), ("s", 24*60*60),
   ("seconds", 24*60*60), ("h", 24), ("d", 1), ("hr", 24), ("day", 1), ("hour", 24)]

/-- `conv_area` table, paramsheets.py:204-205. -/
def areaTable : Table :=
  [("m2", 1), ("cm2", 10000), ("mm2", 1000000), ("in2", 1550.0031), ("ft2", 10.7639)]

/-- `conv_conc` table, paramsheets.py:253-256; `MW` and `val` are the keyword arguments. -/
def concTable (MW val : ℝ) : Table :=
  [("meq", 1), ("mg", MW/val), ("ug", 1000*MW/val), ("ng", 1.0e6*MW/val), ("mgN", 14.001/val),
   ("mgC", 12.011/val), ("eq", 1/1000), ("g", 1/1000*MW/val)]

/-- `conv_weight` table, paramsheets.py:261-262. -/
def weightTable : Table :=
  [("kg", 1), ("g", 1000), ("mg", 1.0e6), ("ug", 1.0e9), ("ng", 1.0e12), ("lbs", 2.2046226218),
   ("lb", 2.2046226218), ("lbm", 2.2046226218), ("oz", 35.27396195)]

/-- The simple converters of paramsheets.py. `conc` carries the keyword arguments `MW`, `val`
(both default to 1, lines 253-254). -/
inductive Simple
  | length | volume | time | area | weight
  | conc (MW val : ℝ)

/-- Which kind of quantity (of the specification) a simple converter is for. -/
def Simple.kind : Simple → Spec.Kind
  | .length => .length
  | .volume => .volume
  | .time => .time
  | .area => .area
  | .weight => .weight
  | .conc _ _ => .conc

/-- Molecular weight and valence are positive (anything else is not a concentration). -/
def Simple.Ok : Simple → Prop
  | .conc MW val => 0 < MW ∧ 0 < val
  | _ => True

/-- The table each simple converter hands to `conv_units`. -/
def Simple.table : Simple → Table
  | .length => lengthTable
  | .volume => volumeTable
  | .time => timeTable
  | .area => areaTable
  | .weight => weightTable
  | .conc MW val => concTable MW val

/-- `conv_length` 104-109, `conv_volume` 112-117, `conv_time` 120-125, `conv_area` 203-208,
`conv_conc` 252-258, `conv_weight` 260-264. -/
def Simple.conv (q : Simple) (uIn uOut : String) (answers : List String) : Except PyErr Conv :=
  convUnits q.table uIn uOut answers

/-- `'/' in var` … `var.split('/')[0]`, `[1]`; `elif 'gpm' in var` → `'gal'`, `'min'`; otherwise
nothing is appended (paramsheets.py:133-140 and the identical loops of the other compound
converters). -/
def splitUnit (var : String) : Option (String × String) :=
  if '/' ∈ var.toList then
    match var.toList.splitOn '/' with
    | a :: b :: _ => some (String.ofList a, String.ofList b)
    | _ => none
  else if "gpm".toList <:+: var.toList then some ("gal", "min")
  else none

/-- The compound converters, with the numerator and denominator converter each calls. -/
inductive Compound
  /-- `conv_vol_per_time`, paramsheets.py:128-152 -/
  | flow
  /-- `conv_vel`, paramsheets.py:155-175 -/
  | velocity
  /-- `conv_dens`, paramsheets.py:177-201 -/
  | density
  /-- `conv_area_per_time`, paramsheets.py:211-231 -/
  | diffusivity
  /-- `conv_capacity_mass`, paramsheets.py:266-285 -/
  | capMass (MW val : ℝ)
  /-- `conv_capacity_vol`, paramsheets.py:287-306 -/
  | capVol (MW val : ℝ)

/-- Numerator converter (lines 141, 168, 190, 224, 279, 300). -/
def Compound.num : Compound → Simple
  | .flow => .volume
  | .velocity => .length
  | .density => .weight
  | .diffusivity => .area
  | .capMass MW val => .conc MW val
  | .capVol MW val => .conc MW val

/-- Denominator converter (lines 142, 169, 191, 225, 280, 301). -/
def Compound.den : Compound → Simple
  | .flow => .time
  | .velocity => .time
  | .density => .volume
  | .diffusivity => .time
  | .capMass _ _ => .weight
  | .capVol _ _ => .volume

/-- The six compound converters. When one of the two unit strings has neither `/` nor `gpm` the list
`vol` has fewer than two entries: the call `conv_x(vol[0], vol[1], …)` raises `IndexError`
(line 141 etc.). If only the *source* text is unusable the list has one entry and `vol[1]` raises as
well. The cosmetic rebuilding of `u_in` (lines 144-148 etc.) is simplified to joining with `/`; it is
only used for labels. -/
def Compound.conv (q : Compound) (uIn uOut : String) (answers : List String) : Except PyErr Conv :=
  match splitUnit uIn, splitUnit uOut with
  | some (n1, d1), some (n2, d2) =>
    match q.num.conv n1 n2 answers with
    | .error e => .error e
    | .ok cn =>
      match q.den.conv d1 d2 cn.rest with
      | .error e => .error e
      | .ok cd => .ok ⟨cn.factor / cd.factor, cn.uIn ++ "/" ++ cd.uIn, uOut, cd.rest⟩
  | _, _ => .error .indexError

/-- `conv_fr_to_vel`, paramsheets.py:235-249, for `u_out = lOut ++ "/" ++ timeOut`
(the only call, line 458, uses `'cm/s'`). The product of the two factors over `π d²/4`. -/
def convFrToVel (uIn lOut timeOut : String) (diam : ℝ) (diamU : String) (answers : List String) :
    Except PyErr ℝ :=
  match Compound.flow.conv uIn (diamU ++ "3" ++ "/" ++ timeOut) answers with
  | .error e => .error e
  | .ok c1 =>
    match Simple.length.conv diamU lOut c1.rest with
    | .error e => .error e
    | .ok c2 => .ok (c1.factor * c2.factor / (Real.pi * diam ^ 2 / 4))

end
end WTM
