import Mathlib.Analysis.SpecialFunctions.Trigonometric.Basic
import Mathlib.Data.Finset.Sort
import Mathlib.Algebra.Order.Floor.Semiring
import Verif.Model.GacColumn

/-! The carbon column object: its geometry, backups, single-compound runs, the two fitting loops and the
uncertainty analysis (PSDM.py:192-352, 730-1310, 1659-1762, 1828-2011). The simulation `run_psdm` itself is
the parameter `Sim`: a function of everything it reads from the object (its equations are
Model/GacColumn.lean). Tables are functions of the compound name; a compound missing from a table is not
modelled except in the data. A run that raises leaves the object as it is at that moment. -/
set_option autoImplicit false
namespace WTM
noncomputable section

/-! ### The object -/

/-- Column inputs, PSDM.py:192-201. -/
structure Geom where
  L : ℝ
  diam : ℝ
  wt : ℝ
  flrt : ℝ
  rhop : ℝ
  rhof : ℝ
  rad : ℝ
  tortu : ℝ
  psdfr : ℝ
  epor : ℝ

/-- Derived values, PSDM.py:210-219. -/
structure Derived where
  area : ℝ
  bedvol : ℝ
  ebed : ℝ
  tau : ℝ
  sf : ℝ
  vs : ℝ
  re : ℝ
  ebct : ℝ

/-- PSDM.py:210-219, repeated at 770-779 and 1949-1958. -/
def derive (dw vw : ℝ) (g : Geom) : Derived :=
  let area := Real.pi * g.diam ^ 2 / 4
  let bedvol := area * g.L
  let ebed := 1 - g.wt / (bedvol * g.rhop)
  let vs := g.flrt / (60 * area)
  { area := area
    bedvol := bedvol
    ebed := ebed
    tau := bedvol * ebed * 60 / g.flrt
    sf := 0.245423867471 * g.flrt / area
    vs := vs
    re := 2 * g.rad * vs * dw / (ebed * vw)
    ebct := area * g.L / g.flrt }

/-- One column of `k_data`, PSDM.py:292. -/
structure KCol where
  K : ℝ
  xn : ℝ
  q : ℝ
  brk : ℝ
  aveC : ℝ

abbrev KTab := String → KCol

/-- `self.k_data.loc['K', c] = k; self.k_data.loc['1/n', c] = xn`. -/
def KTab.set (t : KTab) (c : String) (k xn : ℝ) : KTab :=
  fun c' => if c' = c then { t c with K := k, xn := xn } else t c'

/-- Influent and effluent tables by compound, `data_df[influent]`, `data_df[carbon]`. -/
structure GacData where
  infl : String → Option (List (ℝ × ℝ))
  eff : String → Option (List (ℝ × ℝ))

/-- `data.transpose().loc[idx[:, comp], :].transpose()`: keep one compound, PSDM.py:1677, 1853, 1972. -/
def GacData.only (d : GacData) (c : String) : GacData :=
  ⟨fun c' => if c' = c then d.infl c' else none, fun c' => if c' = c then d.eff c' else none⟩

/-- `kf`, `dp`, `ds` of a compound. -/
structure MtCol where
  kf : ℝ
  dp : ℝ
  ds : ℝ

abbrev MtTab := String → MtCol

/-- What the fits and analyses change in the object and `__set_backups` saves, PSDM.py:730-751. `shape` is
the number of compounds in `__y0shape` and `__altshape`, `jac` the one `jac_sparse` was built for; the other
entries of those are fixed. -/
structure Core where
  geom : Geom
  kData : KTab
  data : GacData
  compounds : List String
  numComps : ℕ
  jac : ℕ
  shape : ℕ
  mt : MtTab

/-- The object. -/
structure GacObj where
  core : Core
  der : Derived
  bup : Core
  dw : ℝ
  vw : ℝ
  /-- `mass_transfer_data`, written by `run_psdm` -/
  mtData : MtTab
  optimize : Bool
  testRange : List ℝ
  xnRange : List ℝ
  /-- `k_data_input_type == list` -/
  kInputList : Bool
  /-- `self.xn` -/
  xnDefault : ℝ
  kByXn : String → Option (ℝ → ℝ)

/-- `__set_backups`, PSDM.py:730-751. -/
def setBackups (o : GacObj) : GacObj := { o with bup := o.core }

/-- `__reset_column_values`, PSDM.py:753-788. -/
def resetColumn (o : GacObj) : GacObj := { o with core := o.bup, der := derive o.dw o.vw o.bup.geom }

/-- Simulation: effluent curve of every compound, or an exception; and the mass transfer table it records
(PSDM.py:1434-1436), as a function of the object's current values. -/
abbrev Sim := Core → Derived → Except PyErr (String → ℝ → ℝ) × MtTab

/-- `run_psdm` as a method. -/
def runPsdm (S : Sim) (o : GacObj) : Except PyErr (String → ℝ → ℝ) × GacObj :=
  ((S o.core o.der).1, { o with mtData := (S o.core o.der).2 })

/-! ### Single-compound run -/

/-- `((results(xs) - f_eff(xs))**2).sum()`, `xs = np.arange(brk)`, PSDM.py:1681, 1747. -/
def ssqOf (brk : ℝ) (sim obs : ℝ → ℝ) : ℝ :=
  ((List.range ⌈brk⌉₊).map (fun k : ℕ => (sim k - obs k) ^ 2)).sum

/-- What `run_psdm_kfit` returns besides the compound: `k`, `xn`, the error table as rows
`(index, column, error)`, and the curve (unused in the optimising branch). -/
structure KfitOut where
  k : ℝ
  xn : ℝ
  ssqs : List (ℝ × ℝ × ℝ)
  curve : ℝ → ℝ

/-- Restriction to one compound, PSDM.py:1669-1677. -/
def toSingle (o : GacObj) (c : String) : GacObj :=
  { o with core := { o.core with
      numComps := 1, jac := 1, shape := 1, compounds := [c], data := o.bup.data.only c } }

/-- The optimising branch, PSDM.py:1704-1712, over the remaining `(k, xn)` pairs. -/
def kfitGrid (S : Sim) (c : String) (obs : ℝ → ℝ) (brk : ℝ) (kMult : ℝ → ℝ) :
    List (ℝ × ℝ) → GacObj → List (ℝ × ℝ × ℝ) → Except PyErr (List (ℝ × ℝ × ℝ)) × GacObj
  | [], o, acc => (.ok acc, o)
  | (i, x) :: rest, o, acc =>
    let o1 := { o with core := { o.core with kData := o.core.kData.set c (kMult x * i) x } }
    match runPsdm S o1 with
    | (.error e, o2) => (.error e, o2)
    | (.ok res, o2) => kfitGrid S c obs brk kMult rest o2 (acc ++ [(i, x, ssqOf brk (res c) obs)])

/-- `len(self.test_range) == 1 and len(self.xn_range) == 1`, PSDM.py:1685, 1716. -/
def oneTrial (o : GacObj) : Prop := o.testRange.length = 1 ∧ o.xnRange.length = 1

instance (o : GacObj) : Decidable (oneTrial o) := inferInstanceAs (Decidable (_ ∧ _))

/-- PSDM.py:1685-1686. -/
def kfitFlag (o : GacObj) : GacObj := if oneTrial o then { o with optimize := false } else o

/-- `k_mult`, PSDM.py:1692-1702. -/
def kMultOf (o : GacObj) (c : String) : ℝ → ℝ :=
  match o.kByXn c with
  | some f => f
  | none => fun x => recalcK (o.core.kData c).K (o.core.kData c).q (o.core.kData c).xn x

/-- Optimising branch, PSDM.py:1689-1712: `k` keeps its initial value 1 and `xn` is the last one tried. -/
def kfitOpt (S : Sim) (c : String) (obs : ℝ → ℝ) (o : GacObj) : Except PyErr KfitOut × GacObj :=
  match kfitGrid S c obs (o.core.kData c).brk (kMultOf o c)
      (o.testRange.flatMap fun i => o.xnRange.map fun x => (i, x)) o [] with
  | (.error e, o3) => (.error e, o3)
  | (.ok rows, o3) => (.ok ⟨1, o.xnRange.getLastD 1, rows, fun _ => 0⟩, resetColumn o3)

/-- Branch for a fit given through `test_range` and `xn_range`, PSDM.py:1715-1727: `k` and `xn` keep their
initial value 1. -/
def kfitList (S : Sim) (c : String) (obs : ℝ → ℝ) (o : GacObj) : Except PyErr KfitOut × GacObj :=
  let t := o.testRange.headD 0
  let x := o.xnRange.headD 0
  match runPsdm S { o with core := { o.core with kData := o.core.kData.set c t x } } with
  | (.error e, o3) => (.error e, o3)
  | (.ok res, o3) => (.ok ⟨1, 1, [(t, x, ssqOf (o.core.kData c).brk (res c) obs)], res c⟩, resetColumn o3)

/-- Run with the isotherm table as it is, PSDM.py:1729-1755. -/
def kfitPlain (S : Sim) (c : String) (obs : ℝ → ℝ) (o : GacObj) : Except PyErr KfitOut × GacObj :=
  match runPsdm S o with
  | (.error e, o3) => (.error e, o3)
  | (.ok res, o3) =>
    (.ok ⟨(o.core.kData c).K, (o.core.kData c).xn,
      [((o.core.kData c).xn, (o.core.kData c).K, ssqOf (o.core.kData c).brk (res c) obs)], res c⟩, resetColumn o3)

/-- Choice of branch, PSDM.py:1689, 1716, 1729. -/
def kfitBody (S : Sim) (c : String) (obs : ℝ → ℝ) (o : GacObj) : Except PyErr KfitOut × GacObj :=
  if o.optimize then kfitOpt S c obs o
  else if o.kInputList ∧ oneTrial o then kfitList S c obs o
  else kfitPlain S c obs o

/-- `run_psdm_kfit`, PSDM.py:1659-1761; the observed curve is read at 1678-1681. -/
def runKfit (S : Sim) (o : GacObj) (c : String) : Except PyErr KfitOut × GacObj :=
  match (toSingle o c).core.data.eff c with
  | none => (.error .keyError, toSingle o c)
  | some tab => kfitBody S c (interpExtrap tab) (kfitFlag (toSingle o c))

/-! ### `run_all_smart` -/

/-- `np.round(x, d)`: half to even. -/
def roundN (d : ℕ) (x : ℝ) : ℝ :=
  let y := x * 10 ^ d
  let f : ℤ := ⌊y⌋
  let r : ℤ := if y - f < 1 / 2 then f else if 1 / 2 < y - f then f + 1 else if f % 2 = 0 then f else f + 1
  (r : ℝ) / 10 ^ d

/-- `np.arange(a, b, s)`; a zero step raises. -/
def arange (a b s : ℝ) : Except PyErr (List ℝ) :=
  if s = 0 then .error .zeroDivision
  else .ok ((List.range ⌈(b - a) / s⌉₊).map (fun k : ℕ => a + k * s))

/-- State of the search for one compound: `ssq_storage`, the best point, and two records for the theorems:
`trials` (every simulation asked for: K, 1/n and the error used, newest first) and `touched` (every grid
position looked at). Labels of the grid are taken to be distinct. -/
structure Srch where
  obj : GacObj
  store : ℤ → ℤ → Option ℝ
  bestXn : ℝ
  bestK : ℝ
  bestSsq : ℝ
  trials : List (ℝ × ℝ × ℝ)
  touched : List (ℤ × ℤ)

/-- Error of one trial: of the run, or 1e20 when it raised, PSDM.py:1066-1073. -/
def trialSsq (r : Except PyErr KfitOut) : ℝ :=
  match r with
  | .ok out => match out.ssqs with
    | (_, _, s) :: _ => s
    | [] => 1e20
  | .error _ => 1e20

/-- `get_ssq`, PSDM.py:1059-1075, followed by the write into `ssq_storage` (1133, 1151, 1178-1179, 1192-1193,
1208-1209, 1232-1233, 1247-1248; writing back a cached value changes nothing). -/
def getSsq (S : Sim) (c : String) (base kf xn : ℝ) (ki xi : ℤ) (s : Srch) : ℝ × Srch :=
  let o1 := { s.obj with core := { s.obj.core with kData := s.obj.core.kData.set c (base * kf) xn } }
  match s.store ki xi with
  | some v => (v, { s with obj := o1, touched := (ki, xi) :: s.touched })
  | none =>
    let r := runKfit S o1 c
    let v := trialSsq r.1
    (v, { s with
      obj := r.2
      store := fun a b => if a = ki ∧ b = xi then some v else s.store a b
      trials := (base * kf, xn, v) :: s.trials
      touched := (ki, xi) :: s.touched })

/-- `get_base_k`, PSDM.py:1077-1083. -/
def baseK (c : String) (xn : ℝ) (s : Srch) : ℝ :=
  match s.obj.kByXn c with
  | some f => f xn
  | none => (s.obj.core.kData c).K

/-- One look at a grid position with the update of the best point, PSDM.py:1147-1156 (and 1175-1184,
1189-1198, 1205-1214, 1231-1238, 1246-1253). -/
def probe (S : Sim) (c : String) (base kf xn : ℝ) (ki xi : ℤ) (s : Srch) : ℝ × Srch :=
  let r := getSsq S c base kf xn ki xi s
  (r.1, if r.1 < r.2.bestSsq then { r.2 with bestXn := xn, bestK := kf * base, bestSsq := r.1 } else r.2)

/-- `columns[i]`, `index[i]`. -/
def gridAt (g : List ℝ) (i : ℤ) : ℝ := g.getD i.toNat 0

/-- The loop's variables. -/
structure LoopSt where
  srch : Srch
  xnIdx : ℤ
  kIdx : ℤ
  shiftXn : ℤ
  shiftK : ℤ
  loops : ℕ

/-- A look at a neighbour, if there is one; otherwise the huge error, PSDM.py:1187-1200 and so on. -/
def probeIf (S : Sim) (c : String) (there : Bool) (base kf xn : ℝ) (ki xi : ℤ) (s : Srch) : ℝ × Srch :=
  if there then probe S c base kf xn ki xi s else (1e20, s)

/-- Errors at a position and around it. -/
structure Around where
  base : ℝ
  right : ℝ
  left : ℝ
  upper : ℝ
  lower : ℝ
  srch : Srch

/-- The five looks of one pass, PSDM.py:1173-1255. -/
def lookAround (S : Sim) (c : String) (ks xs : List ℝ) (ki xi : ℤ) (s : Srch) : Around :=
  let xn := gridAt xs xi
  let kf := gridAt ks ki
  let cb := baseK c xn s
  let p0 := probe S c cb kf xn ki xi s
  let right := probeIf S c (xi < xs.length - 1) (baseK c (gridAt xs (xi + 1)) p0.2) kf (gridAt xs (xi + 1))
    ki (xi + 1) p0.2
  let left := probeIf S c (xi ≥ 1) (baseK c (gridAt xs (xi - 1)) right.2) kf (gridAt xs (xi - 1))
    ki (xi - 1) right.2
  let upper := probeIf S c (ki < ks.length - 1) cb (gridAt ks (ki + 1)) xn (ki + 1) xi left.2
  let lower := probeIf S c (ki ≥ 1) cb (gridAt ks (ki - 1)) xn (ki - 1) xi upper.2
  ⟨p0.1, right.1, left.1, upper.1, lower.1, lower.2⟩

/-- Where to move next, PSDM.py:1219-1225 and 1258-1264; `n` is the length of the axis. -/
def shiftOf (up down base : ℝ) (i : ℤ) (n : ℕ) : ℤ :=
  if up ≤ base ∧ i + 1 ≤ (n : ℤ) - 1 then 1
  else if down ≤ base ∧ i - 1 ≥ 0 then -1 else 0

/-- Storing the best point in the table and its backup, PSDM.py:1274-1281, 1291-1294. -/
def saveBest (c : String) (k q : ℝ) (s : Srch) : Srch :=
  let kd : KTab := fun c' => if c' = c then { s.obj.core.kData c with K := k, xn := s.bestXn, q := q }
    else s.obj.core.kData c'
  { s with obj := { s.obj with
      core := { s.obj.core with kData := kd }, bup := { s.obj.bup with kData := kd } } }

/-- End of one pass, PSDM.py:1268-1296; `true` when it ends the loop. -/
def smartDecide (c : String) (limit : ℝ) (loops : ℕ) (xi ki shiftXn shiftK : ℤ) (base : ℝ) (s : Srch) :
    Bool × LoopSt :=
  if |base - s.bestSsq| ≤ 1e-7 ∨ (loops : ℝ) ≥ limit then
    if s.bestK ≤ 0 then
      (true, ⟨saveBest c 1e-6 (if (s.obj.core.kData c).q ≤ 1e-6 then 1e-6 else (s.obj.core.kData c).q) s,
        xi, ki, shiftXn, shiftK, loops⟩)
    else (true, ⟨saveBest c s.bestK (s.obj.core.kData c).q s, xi, ki, shiftXn, shiftK, loops⟩)
  else if shiftK = 0 ∧ shiftXn = 0 then
    (true, ⟨saveBest c s.bestK (s.obj.core.kData c).q s, xi, ki, shiftXn, shiftK, loops⟩)
  else (false, ⟨s, xi, ki, shiftXn, shiftK, loops⟩)

/-- One pass of the loop, PSDM.py:1164-1296. The move along 1/n is decided (1219) before the looks along K,
on errors these do not change. -/
def smartIter (S : Sim) (c : String) (ks xs : List ℝ) (limit : ℝ) (l : LoopSt) : Bool × LoopSt :=
  let xi := l.xnIdx + l.shiftXn
  let ki := l.kIdx + l.shiftK
  let a := lookAround S c ks xs ki xi l.srch
  smartDecide c limit (l.loops + 1) xi ki (shiftOf a.right a.left a.base xi xs.length)
    (shiftOf a.upper a.lower a.base ki ks.length) a.base a.srch

/-- The `while` loop, at most `fuel` passes; `none` if it has not ended by then. -/
def smartLoop (S : Sim) (c : String) (ks xs : List ℝ) (limit : ℝ) : ℕ → LoopSt → Option LoopSt
  | 0, _ => none
  | fuel + 1, l =>
    match smartIter S c ks xs limit l with
    | (true, l') => some l'
    | (false, l') => smartLoop S c ks xs limit fuel l'

/-- Positions of the rough search, `np.round(np.linspace(0, xn_idx_max, num=5), 0)`, PSDM.py:1142. -/
def roughIdx (xMax : ℕ) : List ℤ := (List.range 5).map fun k : ℕ => ⌊roundN 0 ((xMax : ℝ) * k / 4)⌋

/-- Rough search, PSDM.py:1144-1158: state and the position of the best 1/n. -/
def roughStep (S : Sim) (c : String) (ks xs : List ℝ) (ki : ℤ) (acc : Srch × ℤ) (xi : ℤ) : Srch × ℤ :=
  let xn := gridAt xs xi
  let r := probe S c (baseK c xn acc.1) (gridAt ks ki) xn ki xi acc.1
  (r.2, if r.1 < acc.1.bestSsq then xi else acc.2)

/-- Grids of the search, PSDM.py:1121-1130. -/
def smartGrids (bkf pm num desXn : ℝ) : Except PyErr (List ℝ × List ℝ) := do
  let scale := bkf * pm / 100 / num
  let ks ← arange (bkf * (1 - pm / 100)) (bkf * (1 + pm / 100) + scale / 2) scale
  let xs ← arange 0.2 (1 + desXn / 2) desXn
  pure (ks.map (roundN 6), xs.map (roundN 3))

open Classical in
/-- The whole search for one compound, PSDM.py:1110-1296; `bkf` is `get_fouling_factor(compound)`. Asking
`ssq_storage` for a label it does not have is a `KeyError` (1063). The fuel is enough for every run
(`c54_halts`). -/
def smartCompound (S : Sim) (c : String) (bkf pm num desXn limit : ℝ) (o : GacObj) :
    Except PyErr LoopSt := do
  let g ← smartGrids bkf pm num desXn
  let ks := g.1
  let xs := g.2
  match ks.findIdx? (fun k => k = roundN 6 bkf), xs.findIdx? (fun x => x = roundN 3 0.45) with
  | some ki, some xi =>
    let s0 : Srch := ⟨o, fun _ _ => none, 0.45, 0, 0, [], []⟩
    let b := baseK c 0.45 s0
    let r := getSsq S c b bkf 0.45 ki xi s0
    let s1 : Srch := { r.2 with bestK := b * bkf, bestSsq := r.1 }
    let rough := (roughIdx (xs.length - 1)).foldl (roughStep S c ks xs ki) (s1, (xi : ℤ))
    match smartLoop S c ks xs limit (max 1 ⌈limit⌉₊) ⟨rough.1, rough.2, ki, 0, 0, 0⟩ with
    | some l => .ok l
    | none => .error .sysExit
  | _, _ => .error .keyError

/-- The loop over compounds, PSDM.py:1108-1296, with a record of each finished search. -/
def smartAll (S : Sim) (bkf : GacObj → String → ℝ) (pm num desXn limit : ℝ) :
    List String → GacObj → List (String × Srch) → Except PyErr (GacObj × List (String × Srch))
  | [], o, log => .ok (o, log)
  | c :: rest, o, log => do
    let l ← smartCompound S c (bkf o c) pm num desXn limit o
    smartAll S bkf pm num desXn limit rest l.srch.obj (log ++ [(c, l.srch)])

/-- `run_all_smart`, PSDM.py:1097-1309 (without the optional file). -/
def runAllSmart (S : Sim) (bkf : GacObj → String → ℝ) (pm num desXn limit : ℝ) (o : GacObj) :
    Except PyErr (GacObj × List (String × Srch)) := do
  let r ← smartAll S bkf pm num desXn limit o.core.compounds
    { o with kInputList := false, optimize := false } []
  pure (resetColumn { r.1 with
    testRange := o.testRange, xnRange := o.xnRange.map (roundN 5), kInputList := o.kInputList }, r.2)

end
end WTM
