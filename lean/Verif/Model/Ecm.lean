import Mathlib.Analysis.SpecialFunctions.Pow.Real
import Mathlib.Algebra.BigOperators.Fin
import Verif.Model.Fouling

/-! ecm.py: the equilibrium column model. `root` is a parameter; its `success` flag is not looked at by the code.
Printing and `dg` (85) are left out. `minimize` is a list of trials. -/
set_option autoImplicit false
namespace WTM
noncomputable section
open BigOperators

/-- One column of the compound sheet: C0 in mass units. -/
structure EcmIn where
  K : ℝ
  invn : ℝ
  mw : ℝ
  c0 : ℝ

/-- `compdata`, ecm.py:282-290: component `i` is `i`-th column. -/
structure EcmData where
  n : ℕ
  K : ℕ → ℝ
  invn : ℕ → ℝ
  xn : ℕ → ℝ
  mw : ℕ → ℝ
  c0 : ℕ → ℝ
  co : ℕ → ℝ

/-- `beddata`, ecm.py:292-300. -/
structure EcmBed where
  vf : ℝ
  rhob : ℝ
  eps : ℝ
  L : Option ℝ

/-- `_process_input_file`, ecm.py:277-290. -/
def ecmData (mass : Bool) (n : ℕ) (cs : ℕ → EcmIn) : EcmData :=
  { n
    K := fun i => if mass then (cs i).K / (cs i).mw / (1 / (cs i).mw) ^ (cs i).invn else (cs i).K
    invn := fun i => (cs i).invn
    xn := fun i => 1 / (cs i).invn
    mw := fun i => (cs i).mw
    c0 := fun i => (cs i).c0
    co := fun i => (cs i).c0 / (cs i).mw }

/-- `_process_input_file`, ecm.py:292-302 with the constants of 22-24. -/
def ecmBed (flrt density void : ℝ) (L : Option ℝ) : EcmBed :=
  { vf := flrt * 3785.411784 / (12 * 2.54) ^ 2 / 60, rhob := density * 1e3, eps := void, L }

/-- `_fcn2`, ecm.py:132-138. -/
def EcmData.fcn2 (d : EcmData) (x : Fin d.n → ℝ) (i : Fin d.n) : ℝ :=
  x i / (∑ j, x j) * ((∑ j : Fin d.n, d.xn j * x j) / (d.xn i * d.K i)) ^ d.xn i

/-- `fcn`, ecm.py:140-143. -/
def EcmData.fcn (d : EcmData) (x : Fin d.n → ℝ) (i : Fin d.n) : ℝ := d.fcn2 x i * d.mw i - d.c0 i

/-- `_fcn2_e`, ecm.py:145-154, for the last `m` components; `s = n - m` is `start_idx`. -/
def EcmData.fcn2e (d : EcmData) {m : ℕ} (x : Fin m → ℝ) (i : Fin m) : ℝ :=
  let s := d.n - m
  x i / (∑ j, x j) * ((∑ j : Fin m, d.xn (s + j) * x j) / (d.xn (s + i) * d.K (s + i))) ^ d.xn (s + i)

/-- `qstore`, `cstore` (zone, component) and `vw` (zone). -/
structure EcmState where
  q : ℕ → ℕ → ℝ
  c : ℕ → ℕ → ℝ
  vw : ℕ → ℝ

/-- `fcn_extra`, ecm.py:156-172. -/
def EcmData.fcnExtra (d : EcmData) (b : EcmBed) (s : EcmState) {m : ℕ} (x : Fin m → ℝ) (i : Fin m) : ℝ :=
  let start := d.n - m
  let last := start - 1
  (x i - s.q last (start + i)) * b.rhob * s.vw last / (b.vf - s.vw last * b.eps) + s.c last (start + i) - d.fcn2e x i

/-- `scipy.optimize.root(f, guess).x`. -/
abbrev Root := (m : ℕ) → ((Fin m → ℝ) → Fin m → ℝ) → (Fin m → ℝ) → Fin m → ℝ

/-- Values of a vector for the last `m` of `n` components; zero before. -/
def placed (i : ℕ) {m : ℕ} (x : Fin m → ℝ) (j : ℕ) : ℝ := if h : i ≤ j ∧ j - i < m then x ⟨j - i, h.2⟩ else 0

/-- Row `i` of a table replaced. -/
def setRow (t : ℕ → ℕ → ℝ) (i : ℕ) (r : ℕ → ℝ) : ℕ → ℕ → ℝ := fun k => if k = i then r else t k

/-- `a.x`, ecm.py:52-54. -/
def EcmData.load0 (d : EcmData) (root : Root) : Fin d.n → ℝ := root d.n d.fcn fun i => d.K i * d.co i ^ d.invn i

/-- First zone, ecm.py:43-62. -/
def EcmData.first (d : EcmData) (b : EcmBed) (root : Root) : EcmState :=
  let a := d.load0 root
  let q := placed 0 a
  let q11 := q 0 * d.mw 0
  { q := setRow (fun _ _ => 0) 0 q
    c := setRow (fun _ _ => 0) 0 d.co
    vw := fun k => if k = 0 then b.vf * d.c0 0 / (q11 * b.rhob + d.c0 0 * b.eps) else 0 }

/-- `vw_part[k]`, ecm.py:91. -/
def vwDiff (vw : ℕ → ℝ) (k : ℕ) : ℝ := vw k - (if k = 0 then 0 else vw (k - 1))

/-- Wave velocity of zone `i`, ecm.py:88-94. -/
def waveOf (b : EcmBed) (q c : ℕ → ℕ → ℝ) (vw : ℕ → ℝ) (i : ℕ) : ℝ :=
  let denom := q i i * b.rhob + c i i * b.eps
  (b.vf * c 0 i - ∑ k ∈ Finset.range i, (q k i * b.rhob + c k i * b.eps) * vwDiff vw k + denom * vw (i - 1)) / denom

/-- `b.x` of zone `i`, ecm.py:78-81. -/
def EcmData.load (d : EcmData) (b : EcmBed) (root : Root) (s : EcmState) (i : ℕ) : Fin (d.n - i) → ℝ :=
  root (d.n - i) (d.fcnExtra b s) fun j => d.K (i + j) * s.c (i - 1) (i + j) ^ d.invn (i + j)

/-- One pass of the loop, ecm.py:76-94. -/
def EcmData.step (d : EcmData) (b : EcmBed) (root : Root) (s : EcmState) (i : ℕ) : EcmState :=
  let x := d.load b root s i
  let q := setRow s.q i (placed i x)
  let c := setRow s.c i (placed i (d.fcn2e x))
  { q, c, vw := fun k => if k = i then waveOf b q c s.vw i else s.vw k }

/-- The state after zones `0 .. k`. -/
def EcmData.zones (d : EcmData) (b : EcmBed) (root : Root) : ℕ → EcmState
  | 0 => d.first b root
  | k + 1 => d.step b root (d.zones b root k) (k + 1)

/-- The state after the loop of `run_ecm`, ecm.py:42-96. -/
def EcmData.run (d : EcmData) (b : EcmBed) (root : Root) : EcmState := d.zones b root (d.n - 1)

/-- `bvf`, ecm.py:96, 100. -/
def ecmBvf (b : EcmBed) (s : EcmState) (i : ℕ) : ℝ := b.vf / s.vw i

/-- `usage_rate` as stored, ecm.py:102-104. -/
def ecmUsage (b : EcmBed) (s : EcmState) (i : ℕ) : ℝ := 1 / (b.rhob / ecmBvf b s i)

/-- `days_to_breakthrough`, ecm.py:64-67, 99. -/
def ecmDays (b : EcmBed) (s : EcmState) (i : ℕ) : ℝ := b.L.getD 2.765 * 100 / (s.vw i * 3600 * 24)

/-- `sstc`, ecm.py:72-73. -/
def EcmData.sstc (d : EcmData) (i : ℕ) : ℝ := 1000 * d.co i ^ (1 - d.invn i) / d.K i

/-- `xdata`, ecm.py:262-263. -/
def ecmX (n : ℕ) (days : ℕ → ℝ) : List ℝ :=
  0 :: ((List.range n).reverse.flatMap fun i => [days i, days i]) ++ [days 0 + 1]

/-- `ydata` of component `i`, ecm.py:265-270. -/
def EcmData.y (d : EcmData) (s : EcmState) (i : ℕ) : List ℝ :=
  [0, 0] ++ (List.range d.n).reverse.flatMap fun k => [s.c k i * d.mw i, s.c k i * d.mw i]

/-- `plot_obj[comp](t)`, ecm.py:261-275. -/
def EcmData.plot (d : EcmData) (b : EcmBed) (s : EcmState) (i : ℕ) (t : ℝ) : ℝ :=
  interpExtrap ((ecmX d.n (ecmDays b s)).zip (d.y s i)) t

/-- `error1` of `fit_ecm`, ecm.py:201. -/
def fitErr1 (n : ℕ) (days brk : ℕ → ℝ) (w : ℝ) : ℝ := (∑ i ∈ Finset.range n, (days i - brk i) ^ 2) * w

/-- `error2` of `fit_ecm`, ecm.py:203, with `cratio` of 106. -/
def fitErr2 (n : ℕ) (c : ℕ → ℕ → ℝ) (peak : ℕ → ℝ) : ℝ := ∑ i ∈ Finset.range n, (c i i / c 0 i - peak i) ^ 2

/-- The objective of `fit_ecm`, ecm.py:192-208. -/
def ecmFitErr (d : EcmData) (b : EcmBed) (s : EcmState) (brk peak : ℕ → ℝ) (w : ℝ) : ℝ :=
  fitErr1 d.n (ecmDays b s) brk w * fitErr2 d.n s.c peak * 1e5

/-- One trial of `_helper`, ecm.py:193-197: the rows of `compdata` it overwrites. -/
def EcmData.trial (d : EcmData) (ks xni : ℕ → ℝ) : EcmData := { d with K := ks, invn := xni, xn := fun i => 1 / xni i }

/-- `compdata` after `minimize` has evaluated the trials in order, ecm.py:192-215. Nothing is put back. -/
def EcmData.afterFit (d : EcmData) (trials : List ((ℕ → ℝ) × (ℕ → ℝ))) : EcmData :=
  trials.foldl (fun d t => d.trial t.1 t.2) d

end
end WTM
