import Mathlib.Analysis.SpecialFunctions.Pow.Real
import Mathlib.Algebra.BigOperators.Fin
import Verif.Model.Fouling

/-! Granular activated carbon column: `PSDM.run_psdm`, PSDM.py:1320-1655, and the film and isotherm
helpers in PSDM_functions.py. Floating point is replaced by `ℝ`; a division by zero is `0` here, so
theorems that need a nonzero divisor say so.

Compounds `Fin n`, bead points `Fin (r+1)` (last = surface; `nc = r + 1`), axial points `Fin (z+1)`
(0 = inlet; `mc = z + 1`). A state is `y : Fin n → Fin (r+2) → Fin (z+1) → ℝ`; the last row is the
liquid. -/
set_option autoImplicit false
namespace WTM
noncomputable section
open BigOperators

variable {n r z : ℕ}

/-! ### Isotherm and coefficients -/

/-- `recalc_k`, PSDM_functions.py:804-805. -/
def recalcK (k q xnOld xnNew : ℝ) : ℝ := q ^ (1 - xnNew / xnOld) * k ^ (xnNew / xnOld)

/-- `molar_k`, PSDM.py:1413. -/
def molarK (k mw xn : ℝ) : ℝ := k / mw / (1 / mw) ^ xn

/-- Reference concentration, PSDM.py:1375-1376. -/
def cb0Of (c : ℝ) : ℝ := if c = 0 then 1 else c

/-- Liquid diffusivity `difl`, PSDM.py:1386. -/
def difl (vw molVol : ℝ) : ℝ := 13.26e-5 / ((vw * 100) ^ (1.14 : ℝ) * molVol ^ (0.589 : ℝ))

/-- `kf_calc(..., corr='Chern and Chien')`, PSDM_functions.py:751-753, as called at PSDM.py:1387-1392. -/
def kfCorr (vw dw molVol rad re ebed : ℝ) : ℝ :=
  let dl := difl vw molVol
  let sc := vw / (dw * dl)
  dl / (2 * rad) * (1 + 1.5 * (1 - ebed)) * (2 + 0.644 * re ^ (0.5 : ℝ) * sc ^ (1 / 3 : ℝ))

/-- The column: geometry, carbon and water, as read at PSDM.py:1332-1344, 1379-1383. -/
structure GacCol where
  epor : ℝ
  rhop : ℝ
  ebed : ℝ
  tau : ℝ
  rad : ℝ
  psdfr : ℝ
  /-- `self.tortu` -/
  tortu : ℝ
  vw : ℝ
  dw : ℝ
  re : ℝ
  /-- `water_type == 'Organic Free'` -/
  organicFree : Bool

/-- One compound: isotherm, properties, reference concentration and the column of `self.mass_transfer`. -/
structure GacComp where
  K : ℝ
  xn : ℝ
  mw : ℝ
  molVol : ℝ
  /-- influent at time 0, in umol/L -/
  c0 : ℝ
  mtKf : ℝ
  mtDp : ℝ
  mtDs : ℝ

/-- Initial tortuosity, PSDM.py:1380-1382. -/
def tortu0 (G : GacCol) : ℝ := if G.organicFree then G.tortu else 1

/-- `ds_v` by correlation, PSDM.py:1417. -/
def dsCorr (G : GacCol) (c : GacComp) : ℝ :=
  G.epor * difl G.vw c.molVol * cb0Of c.c0 * G.psdfr /
    (tortu0 G * 1e3 * G.rhop * molarK c.K c.mw c.xn * cb0Of c.c0 ^ c.xn)

/-- `kf_v` in use, PSDM.py:1392, 1420-1421. -/
def kfUsed (G : GacCol) (c : GacComp) : ℝ :=
  if c.mtKf > 0 then c.mtKf else kfCorr G.vw G.dw c.molVol G.rad G.re G.ebed

/-- `dp_v` in use, PSDM.py:1394, 1422-1425. -/
def dpUsed (G : GacCol) (c : GacComp) : ℝ :=
  if c.mtDp > 0 then c.mtDp else difl G.vw c.molVol / tortu0 G

/-- `ds_v` in use, PSDM.py:1417, 1426-1431. -/
def dsUsed (G : GacCol) (c : GacComp) : ℝ :=
  let d := if c.mtDs > 0 then c.mtDs else dsCorr G c
  if G.organicFree then d else d / 1e10

/-- The table saved at PSDM.py:1434-1436. -/
def mtSaved (G : GacCol) (c : GacComp) : ℝ × ℝ × ℝ := (kfUsed G c, dpUsed G c, dsUsed G c)

/-- `qe`, PSDM.py:1440. -/
def qeOf (c : GacComp) : ℝ := molarK c.K c.mw c.xn * cb0Of c.c0 ^ c.xn

/-- `dgs`, `dgp`, `dg`, PSDM.py:1443-1445. -/
def dgsOf (G : GacCol) (c : GacComp) : ℝ :=
  G.rhop * qeOf c * (1 - G.ebed) * 1000 / (G.ebed * cb0Of c.c0)
def dgpOf (G : GacCol) : ℝ := G.epor * (1 - G.ebed) / G.ebed
def dgOf (G : GacCol) (c : GacComp) : ℝ := dgsOf G c + dgpOf G

/-- `dgt`, `dg1`, PSDM.py:1446-1447. -/
def dgtOf (G : GacCol) (cs : Fin n → GacComp) : ℝ := ∑ i, dgOf G (cs i)
def dg1Of (G : GacCol) (cs : Fin n → GacComp) : ℝ := 1 + dgtOf G cs

/-- `ym`, PSDM.py:1441, 1451. -/
def ymOf (cs : Fin n → GacComp) (i : Fin n) : ℝ := qeOf (cs i) / ∑ j, qeOf (cs j)

/-- `d`, PSDM.py:1438. -/
def dRatio (G : GacCol) (c : GacComp) : ℝ := dsUsed G c / dpUsed G c

/-- `eds` with its lower limit, `edp`, PSDM.py:1453-1455. -/
def edsOf (G : GacCol) (c : GacComp) : ℝ :=
  let e := dsUsed G c * dgsOf G c * G.tau / G.rad ^ 2
  if e < 1e-130 then 1e-130 else e
def edpOf (G : GacCol) (c : GacComp) : ℝ := dpUsed G c * tortu0 G * dgpOf G * G.tau / G.rad ^ 2

/-- `beds`, `bedp`, PSDM.py:1449, 1458-1459. -/
def bedsOf (G : GacCol) (cs : Fin n → GacComp) (i : Fin n) : ℝ :=
  (edsOf G (cs i) + dRatio G (cs i) * edpOf G (cs i)) * (dgtOf G cs / dgOf G (cs i))
def bedpOf (G : GacCol) (cs : Fin n → GacComp) (i : Fin n) : ℝ :=
  edpOf G (cs i) * (1 - dRatio G (cs i)) * (dgtOf G cs / dgOf G (cs i))

/-- `stdv`, PSDM.py:1462-1463. -/
def stdvOf (G : GacCol) (cs : Fin n → GacComp) (i : Fin n) : ℝ :=
  kfUsed G (cs i) * (1 - G.ebed) * G.tau / (G.ebed * G.rad) * dgtOf G cs

/-- `tconv`, PSDM.py:1466. -/
def tconvOf (G : GacCol) (cs : Fin n → GacComp) : ℝ := 60 / (G.tau * dg1Of G cs)

/-- `facA` at tortuosity `tort`, PSDM.py:1517. -/
def facAOf (tort d : ℝ) : ℝ := (1 / tort - d) / (1 - d)

/-- `foulFA` at capacity multiplier `f`, PSDM.py:1518. -/
def foulFOf (f xn : ℝ) : ℝ := (1 / f) ^ (1 / xn)

/-! ### Right-hand side -/

/-- State tensor, PSDM.py:242, 1541. -/
abbrev GacState (n r z : ℕ) := Fin n → Fin (r + 2) → Fin (z + 1) → ℝ

/-- The arrays `diffun` uses, PSDM.py:1489-1508. -/
structure GacDim (n r z : ℕ) where
  ym : Fin n → ℝ
  xn : Fin n → ℝ
  beds : Fin n → ℝ
  bedp : Fin n → ℝ
  stdv : Fin n → ℝ
  dgI : Fin n → ℝ
  dg1 : ℝ
  wr : Fin (r + 1) → ℝ
  br : Fin (r + 1) → Fin (r + 1) → ℝ
  az : Fin (z + 1) → Fin (z + 1) → ℝ

/-- Those arrays from the column and the compounds. -/
def gacDim (G : GacCol) (cs : Fin n → GacComp) (wr : Fin (r + 1) → ℝ)
    (br : Fin (r + 1) → Fin (r + 1) → ℝ) (az : Fin (z + 1) → Fin (z + 1) → ℝ) : GacDim n r z where
  ym := ymOf cs
  xn i := (cs i).xn
  beds := bedsOf G cs
  bedp := bedpOf G cs
  stdv := stdvOf G cs
  dgI i := 1 / dgOf G (cs i)
  dg1 := dg1Of G cs
  wr := wr
  br := br
  az := az

/-- Pore concentrations at one point from the loadings `y` there, PSDM.py:1553-1569. -/
def cpore (ym xn foul y : Fin n → ℝ) (i : Fin n) : ℝ :=
  let z2 := fun j => if ym j * y j < 0 then 0 else ym j * y j
  let qte2 := if ∑ j, z2 j = 0 then 1e-30 else ∑ j, z2 j
  let yt0 := ∑ j, 1 / xn j * z2 j
  let zf := if qte2 ≤ 0 then 0 else z2 i / qte2
  let q0 := xn i / ym i * yt0
  if qte2 ≤ 0 ∨ yt0 ≤ 0 ∨ 1 / xn i * q0 < -20 then 0
  else foul i * (zf * q0 ^ (1 / xn i))

/-- `cpore2` after the surface row is clamped; `cpore_tmp2` is a view of `cpore2`, so the clamp is
seen by every later use, PSDM.py:1571-1572. -/
def cporeAt (D : GacDim n r z) (foul : Fin n → ℝ) (y : GacState n r z) (i : Fin n) (k : Fin (r + 1))
    (w : Fin (z + 1)) : ℝ :=
  let c := cpore D.ym D.xn foul (fun j => y j k.castSucc w) i
  if k = Fin.last r ∧ c < 0 then 0 else c

/-- `bb2`, PSDM.py:1578-1581, for an interior bead point. -/
def gacBB (D : GacDim n r z) (foul fac : Fin n → ℝ) (y : GacState n r z) (i : Fin n) (k : Fin (r + 1))
    (w : Fin (z + 1)) : ℝ :=
  (∑ l, D.br k l * D.bedp i * cporeAt D foul y i l w) * fac i +
    ∑ l, D.br k l * D.beds i * y i l.castSucc w

/-- `cbs2`, PSDM.py:1574-1576. -/
def gacCbs (D : GacDim n r z) (foul : Fin n → ℝ) (y : GacState n r z) (i : Fin n) (w : Fin (z + 1)) : ℝ :=
  if w = 0 then 0 else (y i (Fin.last (r + 1)) w - cporeAt D foul y i (Fin.last r) w) * D.stdv i

/-- `ww2`, PSDM.py:1583-1584. -/
def gacWW (D : GacDim n r z) (foul fac : Fin n → ℝ) (y : GacState n r z) (i : Fin n) (w : Fin (z + 1)) : ℝ :=
  ∑ k : Fin r, D.wr k.castSucc * gacBB D foul fac y i k.castSucc w

/-- Bead rows of `ydot2`, PSDM.py:1587-1599. -/
def gacBead (D : GacDim n r z) (cinfl foul fac : Fin n → ℝ) (y : GacState n r z) (i : Fin n)
    (k : Fin (r + 1)) (w : Fin (z + 1)) : ℝ :=
  if k = Fin.last r then
    if w = 0 then
      ((cinfl i - cporeAt D foul y i (Fin.last r) 0) * (D.stdv i * D.dgI i) - gacWW D foul fac y i 0) /
        D.wr (Fin.last r)
    else (gacCbs D foul y i w * D.dgI i - gacWW D foul fac y i w) / D.wr (Fin.last r)
  else gacBB D foul fac y i k w

/-- Liquid row of `ydot2`, PSDM.py:1601-1611; the inlet entry stays at zero. -/
def gacLiq (D : GacDim n r z) (cinfl foul : Fin n → ℝ) (y : GacState n r z) (i : Fin n)
    (w : Fin (z + 1)) : ℝ :=
  if w = 0 then 0
  else -D.dg1 * (D.az w 0 * cinfl i + ∑ w' : Fin z, D.az w w'.succ * y i (Fin.last (r + 1)) w'.succ) -
    3 * gacCbs D foul y i w

/-- `diffun`, PSDM.py:1533-1615, with the influent, fouling factor and tortuosity factor at the time. -/
def gacRhs (D : GacDim n r z) (cinfl foul fac : Fin n → ℝ) (y : GacState n r z) : GacState n r z :=
  fun i a w => Fin.lastCases (gacLiq D cinfl foul y i w) (fun k => gacBead D cinfl foul fac y i k w) a

/-- `interp`, PSDM_functions.py:807-811: the value between two consecutive minutes. -/
def lerp (a b delta : ℝ) : ℝ := (b - a) * delta + a

/-- Number of whole minutes tabulated, `np.arange(0, time[-1] + t_mult*10, 1)`, PSDM.py:1473. -/
def minutesLen (tLast tMult : ℝ) : ℕ := ⌈tLast + tMult * 10⌉₊

/-- A time-dependent input at dimensionless time `t`, PSDM.py:1538-1539, 1548-1550: `A` is tabulated at the
whole minutes; the slice `A[idx:idx+2]` is short, and `array[1]` an `IndexError`, beyond the table. -/
def gacSample (len : ℕ) (A : ℕ → ℝ) (tconv t : ℝ) : Except PyErr ℝ :=
  let idx := ⌊t / tconv⌋₊
  if idx + 1 < len then .ok (lerp (A idx) (A (idx + 1)) (t / tconv - idx)) else .error .indexError

/-- Influent used at dimensionless time `t`, PSDM.py:1512-1516, 1548; the table `tab` is in minutes. -/
def gacInfluent (tab : List (ℝ × ℝ)) (tLast tMult tconv t : ℝ) : Except PyErr ℝ :=
  gacSample (minutesLen tLast tMult) (fun k => interpExtrap tab k) tconv t

/-! ### Jacobian pattern -/

/-- Position in the flattened state, `y0.reshape((num_comps, nc+1, mc))`, PSDM.py:1541. -/
def gacIdx (i : Fin n) (a : Fin (r + 2)) (w : Fin (z + 1)) : ℕ :=
  (i : ℕ) * ((r + 2) * (z + 1)) + (a : ℕ) * (z + 1) + (w : ℕ)

/-- Entry of the block `(i, j)` of `spar_Jac`, PSDM_functions.py:860-895, at row `R`, column `C` of the
block; `same` is `i == j`. `spdiags(data, diags, m, n)` has `data[k, C]` where `C - R = diags[k]`. -/
def sparBlock (nr nzt : ℕ) (same : Bool) (R C : ℕ) : ℝ :=
  let bead := nr * nzt
  if R < bead ∧ C < bead then
    if ∃ t < 2 * (nr - 1) + 1, C + (nr - 1) * nzt = R + t * nzt then 1 else 0
  else if C < bead then
    if C = (R - bead) + (nr - 1) * nzt ∧ C ≠ bead - nzt then 1 else 0
  else if R < bead then
    if same ∧ bead - nzt ≤ R ∧ R - (bead - nzt) = C - bead ∧ C - bead ≠ 0 then 1 else 0
  else if same ∧ R - bead ≠ 0 ∧ C - bead ≠ 0 then 1 else 0

/-- `spar_Jac`, PSDM_functions.py:835-907, entry at row `I`, column `J`. -/
def sparJac (nr nzt I J : ℕ) : ℝ :=
  let cube := nzt * (nr + 1)
  sparBlock nr nzt (I / cube == J / cube) (I % cube) (J % cube)

/-! ### Results -/

/-- Positions of the effluent in the flattened state, PSDM.py:1618-1619. -/
def effluentLocator (nc mc i : ℕ) : ℕ := (nc + 1) * mc * (i + 1) - 1

/-- Reported effluent, PSDM.py:1633-1637. -/
def reported (cb0 mw massMul e : ℝ) : ℝ := (if e < 0 then 0 else e) * cb0 * mw / massMul

end
end WTM
