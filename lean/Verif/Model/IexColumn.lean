import Verif.Model.Equil
import Verif.Model.Interp

/-! Column ion-exchange models: `solve` and its `diffun` in hsdmix.py:280-573 and psdmix.py:66-389.

Ions `Fin (p+1)` (0 = presaturant), axial points `Fin (z+1)` (0 = inlet), bead points `Fin (r+1)`
(last = surface). A state is `u : Fin (r+2) → Fin (p+1) → Fin (z+1) → ℝ`: index 0 is the liquid
(`LIQUID`), index `k.succ` is bead point `k` (`RESIN:`), the last one the bead surface (`SURF = -1`).
In the code `nr = r + 1`, `NION = p + 1`, `nz = z + 1`. Floating point is replaced by `ℝ`; the value of a
division by zero is `0` here, so theorems that need a nonzero divisor say so. -/
set_option autoImplicit false
namespace WTM
noncomputable section
open BigOperators

variable {r p z : ℕ}

/-- State tensor of the column models, hsdmix.py:376. -/
abbrev ColState (r p z : ℕ) := Fin (r + 2) → Fin (p + 1) → Fin (z + 1) → ℝ

/-- Parameters of a column run: the parameter sheet, the ion table columns and the collocation
operators (hsdmix.py:301-369, psdmix.py:95-168). `Dp`, `EPOR` are only used by PSDMIX. -/
structure ColParams (r p z : ℕ) where
  EBED : ℝ
  L : ℝ
  v : ℝ
  rb : ℝ
  Q : ℝ
  EPOR : ℝ
  kL : Fin (p + 1) → ℝ
  Ds : Fin (p + 1) → ℝ
  Dp : Fin (p + 1) → ℝ
  K : Fin (p + 1) → ℝ
  val : Fin (p + 1) → ℕ
  Az : Fin (z + 1) → Fin (z + 1) → ℝ
  Br : Fin (r + 1) → Fin (r + 1) → ℝ
  Wr : Fin (r + 1) → ℝ

/-- `t_half` from the first influent row, hsdmix.py:316-319: `DGT`, `tau`, `t_half`. -/
def tHalf (P : ColParams r p z) (Cin : Fin (p + 1) → ℝ) : ℝ :=
  let CT := ∑ i, Cin i
  let DGT := (1 - P.EBED) / P.EBED * P.Q / CT
  let tau := P.L * P.EBED / P.v
  tau * (1 + DGT)

/-- In-place write of the influent into the inlet, hsdmix.py:477: `u[LIQUID, :, 0] = get_Cin(T)`. `C` is a
view of `u`, so it sees the write too. -/
def setInlet (u : ColState r p z) (cin : Fin (p + 1) → ℝ) : ColState r p z :=
  fun a i w => if a = 0 ∧ w = 0 then cin i else u a i w

/-- "Implicit chloride": row 0 becomes minus the sum of the others, hsdmix.py:491 and 515. -/
def implicitRef (f : Fin (p + 1) → ℝ) (i : Fin (p + 1)) : ℝ :=
  if i = 0 then -∑ j : Fin p, f j.succ else f i

/-- Surface flux `J`, hsdmix.py:483-491 (psdmix.py:285-296), at one axial point, from liquid
concentrations `C`, and equilibrium concentrations `Ceq`. -/
def fluxJ (kL C Ceq : Fin (p + 1) → ℝ) : Fin (p + 1) → ℝ :=
  implicitRef (fun i => -kL i * (C i - Ceq i))

/-- Liquid rate, hsdmix.py:492, 501-503. -/
def liqRate (P : ColParams r p z) (tHalf : ℝ) (C J : Fin (p + 1) → Fin (z + 1) → ℝ)
    (i : Fin (p + 1)) (w : Fin (z + 1)) : ℝ :=
  (-P.v / P.L * (∑ w', P.Az w w' * C i w') + (1 - P.EBED) * (J i w * 3 / P.rb)) / P.EBED * tHalf

/-- Assembly of `du_dT`, hsdmix.py:519-526 (psdmix.py:330-338): liquid rows with a fixed inlet, bead rows,
and the bead surface replaced by the boundary condition. -/
def assemble (P : ColParams r p z) (tHalf : ℝ) (dC J : Fin (p + 1) → Fin (z + 1) → ℝ)
    (dq : Fin (r + 1) → Fin (p + 1) → Fin (z + 1) → ℝ) : ColState r p z :=
  fun a i w => Fin.cases (if w = 0 then 0 else dC i w)
    (fun k => if k = Fin.last r then
        (-tHalf / P.rb * J i w - ∑ k' : Fin r, P.Wr k'.castSucc * dq k'.castSucc i w)
          / P.Wr (Fin.last r)
      else dq k i w) a

/-- Bead rate of HSDMIX, hsdmix.py:506-515. -/
def hsdmBead (P : ColParams r p z) (tHalf : ℝ) (u : ColState r p z) :
    Fin (r + 1) → Fin (p + 1) → Fin (z + 1) → ℝ :=
  fun k i w => implicitRef
    (fun i => P.Ds i * tHalf / P.rb ^ 2 * ∑ l, P.Br k l * u l.succ i w) i

/-- `diffun` of HSDMIX, hsdmix.py:467-530, with influent `cin = get_Cin(T)`. -/
def hsdmixRhs (P : ColParams r p z) (tHalf : ℝ) (cin : Fin (p + 1) → ℝ) (u₀ : ColState r p z) :
    ColState r p z :=
  let u := setInlet u₀ cin
  let CT := fun w => ∑ i, u 0 i w
  let Ceq := fun w => ceq P.K P.val (fun i => u (Fin.last (r + 1)) i w) (CT w)
  let J := fun i w => fluxJ P.kL (fun i => u 0 i w) (Ceq w) i
  assemble P tHalf (liqRate P tHalf (u 0) J) J (hsdmBead P tHalf u)

/-- Pore concentrations of PSDMIX, psdmix.py:275-288. -/
def poreConc (P : ColParams r p z) (u : ColState r p z) :
    Fin (r + 1) → Fin (p + 1) → Fin (z + 1) → ℝ :=
  fun k i w => ceq P.K P.val (fun i => u k.succ i w / (1 - P.EPOR)) (∑ i, u 0 i w) i

/-- Bead rate of PSDMIX, psdmix.py:312-327. -/
def psdmBead (P : ColParams r p z) (tHalf : ℝ) (u : ColState r p z) :
    Fin (r + 1) → Fin (p + 1) → Fin (z + 1) → ℝ :=
  fun k i w => implicitRef
    (fun i => tHalf * (P.EPOR * (P.Dp i - P.Ds i) * (∑ l, P.Br k l * poreConc P u l i w) +
      P.Ds i * ∑ l, P.Br k l * u l.succ i w) / P.rb ^ 2) i

/-- `diffun` of PSDMIX, psdmix.py:263-346. The NaN check (342-344) raises; not modelled (no NaN in `ℝ`). -/
def psdmixRhs (P : ColParams r p z) (tHalf : ℝ) (cin : Fin (p + 1) → ℝ) (u₀ : ColState r p z) :
    ColState r p z :=
  let u := setInlet u₀ cin
  let CT := fun w => ∑ i, u 0 i w
  let Ceq := fun w =>
    ceq P.K P.val (fun i => u (Fin.last (r + 1)) i w / (1 - P.EPOR)) (CT w)
  let J := fun i w => fluxJ P.kL (fun i => u 0 i w) (Ceq w) i
  assemble P tHalf (liqRate P tHalf (u 0) J) J (psdmBead P tHalf u)

/-- Initial state, hsdmix.py:376-384 (psdmix.py:173-181). `uInit = none` also stands for an all-zero
array (`np.any`). -/
def colInit (Q : ℝ) (Cin : Fin (p + 1) → ℝ) (uInit : Option (ColState r p z)) : ColState r p z :=
  fun a i w =>
    match uInit with
    | some u' => if a = 0 ∧ w = 0 then Cin i else u' a i w
    | none =>
      if a = 0 then
        (if w = 0 then Cin i else if i = 0 then ∑ j, Cin j else 0)
      else if i = 0 then Q else 0

/-- Physical output times, hsdmix.py:551. -/
def outTime (tHalf T : ℝ) : ℝ := T * tHalf

/-- Solver time of a requested time, hsdmix.py:397, 537-542. -/
def toSolverTime (timeMult tHalf t : ℝ) : ℝ := t * (timeMult / tHalf)

/-- `approx_Jac_struc`, hsdmix.py:48-85 (psdmix.py:26-63): entry at row `i`, column `j`. Later assignments
win, so they are tested first. `np.eye(n, m, k)` has ones where `j - i = k`. -/
def jacStruc (nr NION nz i j : ℕ) : ℝ :=
  let nzni := NION * nz
  if i < nzni ∧ nr * nzni ≤ j then 1
  else if i < nzni ∧ j < nzni then 1
  else if i < nzni then 0
  else (if nzni ≤ i ∧ nzni ≤ j ∧ i = j then 1 else 0) +
    ∑ t ∈ Finset.range (NION * (1 + nr) - 1),
      ((if j = i + nz * (t + 1) then 1 else 0) + (if i = j + nz * (t + 1) then 1 else 0))

/-- Position of a tensor entry in the flattened state, hsdmix.py:386 (C order). -/
def flatIdx {r p z : ℕ} (a : Fin (r + 2)) (i : Fin (p + 1)) (w : Fin (z + 1)) : ℕ :=
  (a : ℕ) * ((p + 1) * (z + 1)) + (i : ℕ) * (z + 1) + (w : ℕ)

end
end WTM
