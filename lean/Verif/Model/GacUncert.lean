import Mathlib.Analysis.SpecialFunctions.Log.Basic
import Verif.Model.GacState

/-! `model_uncertainty` of the carbon column, PSDM.py:1828-2011. Results are kept as functions of time instead
of at the 2000 points of `self.results.index`. Restricting `k_data` to one column (1856, 1975) is not shown:
the other columns are not read by a run of that compound alone. Whether the chained assignments
`self.uncertainty_results['lower'][comp] = …` of the competitive branch (2002-2003) reach the table or a copy of
it depends on the pandas version: the parameter `thru`. -/
set_option autoImplicit false
namespace WTM
noncomputable section

/-- Keys of a test, PSDM.py:1885-1889. -/
inductive UKey where
  | k | xn | qn | mass | ds | dp | kf | flrt | C
deriving DecidableEq

/-- `test_uncertainty`, PSDM.py:1880-1895: percentages to lists of (key, factor). -/
def uTests (capacity : Option ℝ) (k qn mass ds dp kf flrt c0 : Option ℝ) : List (List (UKey × ℝ)) :=
  (match capacity with
    | some p => [[(.k, 1 + p / 100), (.xn, 1 - p / 100)], [(.k, 1 - p / 100), (.xn, 1 + p / 100)]]
    | none => []) ++
  [(UKey.k, k), (.qn, qn), (.mass, mass), (.ds, ds), (.dp, dp), (.kf, kf), (.flrt, flrt), (.C, c0)].flatMap
    fun (key, v) => match v with
      | some p => [[(key, 1 + p / 100)], [(key, 1 - p / 100)]]
      | none => []

/-- The object, `k_data_loop` and `data` while a test is prepared. -/
structure UPrep where
  o : GacObj
  kLoop : KTab
  data : GacData

/-- `data[self.influent] *= f`. -/
def GacData.scale (d : GacData) (f : ℝ) : GacData :=
  { d with infl := fun c => (d.infl c).map (List.map fun p : ℝ × ℝ => (p.1, p.2 * f)) }

/-- `self.L` after a change of `self.wt`, PSDM.py:1928-1931. -/
def resizeL (g : Geom) : ℝ :=
  if g.wt / (Real.pi / 4 * g.diam ^ 2 * g.L) > g.rhof then g.wt / (Real.pi / 4 * g.diam ^ 2 * g.rhof) else g.L

/-- One key of a test, PSDM.py:1906-1945; `massMul` is `self.mass_mul`. -/
def uApply (massMul : ℝ) (p : UPrep) (e : UKey × ℝ) : UPrep :=
  let g := p.o.core.geom
  let withGeom (g' : Geom) : UPrep := { p with o := { p.o with core := { p.o.core with geom := g' } } }
  let withMt (m : MtTab) : UPrep := { p with o := { p.o with core := { p.o.core with mt := m } } }
  match e.1 with
  | .k => { p with kLoop := fun c => { p.kLoop c with K := (p.kLoop c).K * e.2 } }
  | .xn => { p with kLoop := fun c => { p.kLoop c with xn := (p.kLoop c).xn * e.2 } }
  | .flrt => withGeom { g with flrt := g.flrt * e.2 }
  | .ds => withMt fun c => { p.o.core.mt c with ds := (p.o.core.mt c).ds * e.2 }
  | .dp => withMt fun c => { p.o.core.mt c with dp := (p.o.core.mt c).dp * e.2 }
  | .kf => withMt fun c => { p.o.core.mt c with kf := (p.o.core.mt c).kf * e.2 }
  | .mass => withGeom { g with wt := g.wt * e.2, L := resizeL { g with wt := g.wt * e.2 } }
  | .C => { p with
      data := p.data.scale e.2
      o := { p.o with core := { p.o.core with
        data := p.data.scale e.2
        kData := fun c => { p.o.core.kData c with aveC := (p.o.core.kData c).aveC * e.2 } } } }
  | .qn => { p with o := { p.o with core := { p.o.core with
      kData := fun c => { p.o.core.kData c with
        xn := Real.log ((p.o.core.kData c).q * e.2 / (p.o.core.kData c).K) /
          Real.log ((p.o.core.kData c).aveC * massMul) } } } }

/-- One test up to its runs, PSDM.py:1899-1958; `cmt` is `calced_mass_transfer`. -/
def uPrepare (massMul : ℝ) (cmt : MtTab) (o : GacObj) (test : List (UKey × ℝ)) : UPrep :=
  let o1 := resetColumn o
  let p := test.foldl (uApply massMul)
    ⟨{ o1 with core := { o1.core with mt := cmt } }, o1.core.kData, o1.core.data⟩
  { p with o := { p.o with der := derive p.o.dw p.o.vw p.o.core.geom } }

/-- The object set up for one compound alone, PSDM.py:1844-1856, 1963-1975. -/
def uSingle (kd : KTab) (data : GacData) (c : String) (o : GacObj) : GacObj :=
  { o with core := { o.core with
      numComps := 1, jac := 1, shape := 1, compounds := [c], data := data.only c, kData := kd } }

/-- Runs of the compounds one by one: curves, and the recorded mass transfer of each. -/
def uSingles (S : Sim) (kd : KTab) (data : GacData) :
    List String → GacObj → (String → ℝ → ℝ) → MtTab → Except PyErr ((String → ℝ → ℝ) × MtTab) × GacObj
  | [], o, res, mt => (.ok (res, mt), o)
  | c :: rest, o, res, mt =>
    match runPsdm S (uSingle kd data c o) with
    | (.error e, o') => (.error e, o')
    | (.ok r, o') => uSingles S kd data rest o' (fun c' => if c' = c then r c else res c')
        (fun c' => if c' = c then o'.mtData c else mt c')

/-- The runs of a test or of the base case: one by one, or all together. -/
def uRuns (S : Sim) (single : Bool) (kd : KTab) (data : GacData) (mt0 : MtTab) (o : GacObj) :
    Except PyErr ((String → ℝ → ℝ) × MtTab) × GacObj :=
  if single then uSingles S kd data o.bup.compounds o (fun _ _ => 0) mt0
  else
    match runPsdm S { o with core := { o.core with kData := kd } } with
    | (.error e, o') => (.error e, o')
    | (.ok r, o') => (.ok (r, o'.mtData), o')

/-- `self.results` and `self.uncertainty_results`. -/
structure UOut where
  results : String → ℝ → ℝ
  upper : String → ℝ → ℝ
  lower : String → ℝ → ℝ

/-- The bands with one more curve, PSDM.py:1982-1986, 1999-2003. -/
def UOut.widen (out : UOut) (r : String → ℝ → ℝ) : UOut :=
  { out with
    lower := fun c t => min (out.lower c t) (r c t)
    upper := fun c t => max (out.upper c t) (r c t) }

/-- What a test's curves do to the tables; without `single` they replace `self.results` (1995). -/
def uRecord (thru single : Bool) (r : String → ℝ → ℝ) (out : UOut) : UOut :=
  if single then out.widen r
  else { (if thru then out.widen r else out) with results := r }

/-- The loop over tests, PSDM.py:1898-2003. -/
def uLoop (S : Sim) (massMul : ℝ) (thru single : Bool) (cmt : MtTab) :
    List (List (UKey × ℝ)) → GacObj → UOut → Except PyErr UOut × GacObj
  | [], o, out => (.ok out, o)
  | test :: rest, o, out =>
    let p := uPrepare massMul cmt o test
    match uRuns S single p.kLoop p.data cmt p.o with
    | (.error e, o') => (.error e, o')
    | (.ok (r, _), o') =>
      uLoop S massMul thru single cmt rest o' (uRecord thru single r out)

/-- `model_uncertainty`, PSDM.py:1828-2009. -/
def modelUncertainty (S : Sim) (massMul : ℝ) (thru single : Bool) (tests : List (List (UKey × ℝ))) (o : GacObj) :
    Except PyErr UOut × GacObj :=
  let o1 := setBackups o
  match uRuns S single o1.core.kData o1.bup.data o1.core.mt o1 with
  | (.error e, o') => (.error e, o')
  | (.ok (base, cmt), o2) =>
    match uLoop S massMul thru single cmt tests o2 ⟨base, base, base⟩ with
    | (.error e, o') => (.error e, o')
    | (.ok out, o') => (.ok out, resetColumn o')

end
end WTM
