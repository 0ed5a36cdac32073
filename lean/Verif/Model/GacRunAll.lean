import Verif.Model.GacState

/-! `run_all`, PSDM.py:796-1013, and `run_all_MP`, 2026-2153: fitting by grids, brute or staged. Plots and
files are left out. `find_minimum_df` is the parameter `findMin`: given the rows `(K multiplier, 1/n, error)`
it names a pair or raises. The writes `self.k_data.loc['K'][compound] = …` and
`self.k_data[compound]['K'] = …` are taken to reach the table. -/
set_option autoImplicit false
namespace WTM
noncomputable section

/-- `np.linspace(a, b, n)`. -/
def linspaceN (a b : ℝ) (n : ℕ) : List ℝ := (List.range n).map fun k : ℕ => a + k * ((b - a) / ((n : ℝ) - 1))

/-- `generate_grid` along one axis, PSDM_functions.py:999-1023; the defaults apply to a one-element range in
the first loop. -/
def genAxis (n loop : ℕ) (dflt : ℝ × ℝ) (range : List ℝ) : List ℝ :=
  if loop = 0 ∧ range.length = 1 then linspaceN dflt.1 dflt.2 n
  else linspaceN (range.foldl min (range.headD 0)) (range.foldl max (range.headD 0)) n

/-- Variables of the staged search: `xn_rng_tmp`, `k_rng_tmp`, `xn_range1`, `k_range1`, grid sizes. -/
structure Stage where
  xnT : ℝ × ℝ
  kT : ℝ × ℝ
  xn1 : List ℝ
  k1 : List ℝ
  gx : ℕ
  gk : ℕ

/-- Preparation of the last loop, PSDM.py:860-876. -/
def lastStage (xnLast : ℝ) (st : Stage) : Stage :=
  let xnT : ℝ × ℝ := ((⌊st.xnT.1 / 0.025⌋ : ℝ), (⌈st.xnT.2 / 0.025⌉ : ℝ))
  let kT : ℝ × ℝ := ((⌊st.kT.1 / 0.1⌋ : ℝ), (⌈st.kT.2 / 0.1⌉ : ℝ))
  let gx := ⌊|xnT.2 - xnT.1| + 1⌋₊
  let over := xnT.2 * 0.025 > xnLast
  open Classical in
  { xnT := xnT
    kT := kT
    xn1 := if over then [xnT.1 * 0.025, xnLast] else [xnT.1 * 0.025, xnT.2 * 0.025]
    k1 := [kT.1 * 0.1, kT.2 * 0.1]
    gx := if over then gx - 1 else gx
    gk := ⌊|kT.2 - kT.1| + 1⌋₊ }

/-- One trial, PSDM.py:889-895. The row keeps the `1/n` returned by `run_psdm_kfit`. -/
def raTrial (S : Sim) (c : String) (km : ℝ → ℝ) (k xn : ℝ) (o : GacObj) :
    Except PyErr (ℝ × ℝ × ℝ) × GacObj :=
  let r := runKfit S { o with
    testRange := [k * km xn], xnRange := [xn]
    core := { o.core with kData := o.core.kData.set c (k * km xn) xn } } c
  (r.1.map fun out => (k, out.xn, (out.ssqs.headD (0, 0, 0)).2.2), r.2)

/-- The trials of one loop, PSDM.py:886-897. -/
def raTrials (S : Sim) (c : String) (km : ℝ → ℝ) :
    List (ℝ × ℝ) → GacObj → List (ℝ × ℝ × ℝ) → Except PyErr (List (ℝ × ℝ × ℝ)) × GacObj
  | [], o, rows => (.ok rows, o)
  | (k, xn) :: rest, o, rows =>
    match raTrial S c km k xn o with
    | (.error e, o') => (.error e, o')
    | (.ok row, o') => raTrials S c km rest o' (rows ++ [row])

/-- New bounds along one axis, PSDM.py:918-936 and 938-956. -/
def raAxis (range : List ℝ) (des : ℝ) (i n : ℕ) : (ℝ × ℝ) × ℕ :=
  let m := range.length - 1
  let t : ℝ × ℝ := if i = 0 then (range.getD 0 0, range.getD 1 0)
    else if i = m then (range.getD (m - 1) 0, range.getD m 0)
    else (range.getD (i - 1) 0, range.getD (i + 1) 0)
  open Classical in
  if range.getD 1 0 - range.getD 0 0 < des then
    if i = m then ((t.2 - des, t.2), 2)
    else if i = 0 then ((t.1, t.1 + des), 2)
    else (t, 3)
  else (t, n)

open Classical in
/-- Choice and refinement at the end of a loop, PSDM.py:905-959. -/
def raRefine (findMin : List (ℝ × ℝ × ℝ) → Except PyErr (ℝ × ℝ)) (xr kr : List ℝ)
    (rows : List (ℝ × ℝ × ℝ)) (st : Stage) : Except PyErr ((ℝ × ℝ) × Stage) := do
  let m ← findMin rows
  if xr.length < 2 ∨ kr.length < 2 then throw .indexError
  match xr.findIdx? (fun x => x = m.2), kr.findIdx? (fun k => k = m.1) with
  | some ix, some ik =>
    let ax := raAxis xr 0.025 ix st.gx
    let ak := raAxis kr 0.1 ik st.gk
    pure (m, ⟨ax.1, ak.1, [ax.1.1, ax.1.2], [ak.1.1, ak.1.2], ax.2, ak.2⟩)
  | _, _ => throw .valueError

/-- Grids of a loop: fixed when `brute`, PSDM.py:834-837, 859-882. -/
def raGrid (brute : Bool) (xnFix kFix : List ℝ) (loop initLoop : ℕ) (st : Stage) :
    (List ℝ × List ℝ) × Stage :=
  if brute then ((xnFix, kFix), st)
  else
    let st := if loop = initLoop then lastStage (xnFix.getLastD 0) st else st
    ((genAxis st.gx loop (0.3, 0.9) st.xn1, genAxis st.gk loop (1, 5) st.k1), st)

/-- The loops for one compound, PSDM.py:854-963; the last choice `(K multiplier, 1/n)`. -/
def raLoops (S : Sim) (findMin : List (ℝ × ℝ × ℝ) → Except PyErr (ℝ × ℝ)) (brute : Bool)
    (xnFix kFix : List ℝ) (initLoop : ℕ) (c : String) (km : ℝ → ℝ) :
    List ℕ → Stage → ℝ × ℝ → GacObj → Except PyErr ((ℝ × ℝ) × Stage) × GacObj
  | [], st, best, o => (.ok (best, st), o)
  | loop :: rest, st, _, o =>
    let g := raGrid brute xnFix kFix loop initLoop st
    match raTrials S c km (g.1.2.flatMap fun k => g.1.1.map fun x => (k, x)) o [] with
    | (.error e, o') => (.error e, o')
    | (.ok rows, o') =>
      match raRefine findMin g.1.1 g.1.2 rows g.2 with
      | .error e => (.error e, o')
      | .ok (m, st') => raLoops S findMin brute xnFix kFix initLoop c km rest st' m o'

/-- One compound, PSDM.py:839-963 and 1007-1008. -/
def raCompound (S : Sim) (findMin : List (ℝ × ℝ × ℝ) → Except PyErr (ℝ × ℝ)) (brute : Bool)
    (xnFix kFix : List ℝ) (initGrid initLoop : ℕ) (c : String) (tmp : (ℝ × ℝ) × (ℝ × ℝ)) (o : GacObj) :
    Except PyErr ((ℝ × ℝ) × Stage) × GacObj :=
  let km := fun x => recalcK (o.core.kData c).K (o.core.kData c).q o.xnDefault x
  let n := if brute then 0 else initLoop
  match raLoops S findMin brute xnFix kFix n c km (List.range (n + 1))
      ⟨tmp.1, tmp.2, xnFix, kFix, initGrid, initGrid⟩ (0, 0) o with
  | (.error e, o') => (.error e, o')
  | (.ok (m, st), o') =>
    (.ok ((m.1 * km m.2, m.2), st),
      { o' with core := { o'.core with kData := o'.core.kData.set c (m.1 * km m.2) m.2 } })

/-- The loop over compounds, PSDM.py:839; a record of the choices is kept. -/
def raAll (S : Sim) (findMin : List (ℝ × ℝ × ℝ) → Except PyErr (ℝ × ℝ)) (brute : Bool)
    (xnFix kFix : List ℝ) (initGrid initLoop : ℕ) :
    List String → (ℝ × ℝ) × (ℝ × ℝ) → GacObj → List (String × (ℝ × ℝ)) →
    Except PyErr (List (String × (ℝ × ℝ))) × GacObj
  | [], _, o, log => (.ok log, o)
  | c :: rest, tmp, o, log =>
    match raCompound S findMin brute xnFix kFix initGrid initLoop c tmp o with
    | (.error e, o') => (.error e, o')
    | (.ok (best, st), o') =>
      raAll S findMin brute xnFix kFix initGrid initLoop rest (st.xnT, st.kT) o' (log ++ [(c, best)])

/-- `run_all`, PSDM.py:824-1012. -/
def runAll (S : Sim) (findMin : List (ℝ × ℝ × ℝ) → Except PyErr (ℝ × ℝ)) (brute : Bool)
    (initGrid initLoop : ℕ) (o : GacObj) : Except PyErr (List (String × (ℝ × ℝ))) × GacObj :=
  match raAll S findMin brute o.xnRange o.testRange initGrid initLoop o.core.compounds
      ((0, 0), (0, 0)) { o with optimize := false } [] with
  | (.error e, o') => (.error e, o')
  | (.ok log, o') => (.ok log, { o' with xnRange := o.xnRange, testRange := o.testRange, optimize := o.optimize })

/-- One compound of `run_all_MP`, PSDM.py:2065-2149; `work` are the rows returned by the worker processes,
which get copies of the object. -/
def mpCompound (S : Sim) (findMin : List (ℝ × ℝ × ℝ) → Except PyErr (ℝ × ℝ))
    (work : GacObj → String → Except PyErr (List (ℝ × ℝ × ℝ))) (flat : List (ℝ × ℝ × ℝ) → Bool) (c : String)
    (o : GacObj) : Except PyErr (Option (ℝ × ℝ)) × GacObj :=
  let km := fun x => recalcK (o.core.kData c).K (o.core.kData c).q o.xnDefault x
  match work o c with
  | .error e => (.error e, o)
  | .ok rows =>
    if flat rows then (.ok none, o)
    else
      match findMin rows with
      | .error e => (.error e, o)
      | .ok m =>
        match runKfit S { o with testRange := [m.1 * km m.2], xnRange := [m.2] } c with
        | (.error e, o') => (.error e, o')
        | (.ok _, o') => (.ok (some (m.1 * km m.2, m.2)),
            { o' with core := { o'.core with kData := o'.core.kData.set c (m.1 * km m.2) m.2 } })

/-- The loop over compounds of `run_all_MP`. -/
def mpAll (S : Sim) (findMin : List (ℝ × ℝ × ℝ) → Except PyErr (ℝ × ℝ))
    (work : GacObj → String → Except PyErr (List (ℝ × ℝ × ℝ))) (flat : List (ℝ × ℝ × ℝ) → Bool) :
    List String → GacObj → List (String × Option (ℝ × ℝ)) →
    Except PyErr (List (String × Option (ℝ × ℝ))) × GacObj
  | [], o, log => (.ok log, o)
  | c :: rest, o, log =>
    match mpCompound S findMin work flat c o with
    | (.error e, o') => (.error e, o')
    | (.ok best, o') => mpAll S findMin work flat rest o' (log ++ [(c, best)])

/-- `run_all_MP`, PSDM.py:2026-2153. -/
def runAllMP (S : Sim) (findMin : List (ℝ × ℝ × ℝ) → Except PyErr (ℝ × ℝ))
    (work : GacObj → String → Except PyErr (List (ℝ × ℝ × ℝ))) (flat : List (ℝ × ℝ × ℝ) → Bool) (o : GacObj) :
    Except PyErr (List (String × Option (ℝ × ℝ))) × GacObj :=
  match mpAll S findMin work flat o.core.compounds { o with optimize := false } [] with
  | (.error e, o') => (.error e, o')
  | (.ok log, o') => (.ok log, { o' with xnRange := o.xnRange, testRange := o.testRange, optimize := o.optimize })

end
end WTM
