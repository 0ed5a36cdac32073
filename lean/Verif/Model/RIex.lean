import Verif.Model.IexColumn

/-! The ion-exchange models of the web application, written in R: `HSDMIX_solve` and `PSDMIX_solve` of
Shiny-IEX/Ion_Exchange_Model.R:299-485, 491-699.

`NR = r + 1`, `NION = p + 1`, `NZ = z + 1`; the parameters are those of `ColParams`, already in the units used by the
solver (Model/RWeb.lean). In R the liquid is the last index of the first dimension (`LIQUID <- NR + 1`), so an array
`x` has beads at `k.castSucc` and the liquid at `Fin.last`. Three R rules matter here:

* arithmetic between a vector and an array runs over the array in column-major order and starts the vector again when it
  is used up (`recyc`), without a message when the lengths divide;
* `m[1, ]` or `m[rows, ]` with one row selected is a vector, and `colSums` of a vector is an error;
* a matrix assigned to fewer cells than it has is an error.

An error is `none`. The sliders give `NR, NZ ≥ 3` (Ion_Exchange_Model.R:1367-1368), so no other dimension collapses. -/
set_option autoImplicit false
namespace WTM
noncomputable section
open BigOperators

variable {r p z : ℕ}

/-- Array of `grid_dims`, Ion_Exchange_Model.R:346, 539: beads first, the liquid last. -/
abbrev RState (r p z : ℕ) := Fin (r + 2) → Fin (p + 1) → Fin (z + 1) → ℝ

/-- The element of a vector of length `p` that meets position `n` (from 0) of a longer array. -/
def recyc (v : Fin p → ℝ) (n : ℕ) : ℝ := if h : 0 < p then v ⟨n % p, Nat.mod_lt n h⟩ else 0

/-- `mv_ions`, Ion_Exchange_Model.R:354-355, 548-549. -/
def rMv (val : Fin (p + 1) → ℕ) : Finset (Fin (p + 1)) := Finset.univ.filter fun i => val i = 1 ∧ i ≠ 0

/-- `dv_ions`, Ion_Exchange_Model.R:353, 547. -/
def rDv (val : Fin (p + 1) → ℕ) : Finset (Fin (p + 1)) := Finset.univ.filter fun i => val i = 2

/-- Does the derivative function get through? Two ions make `J[2:NION, 2:NZ]` a vector for `colSums`
(Ion_Exchange_Model.R:439, 648). With a divalent ion, one monovalent ion besides the reference does the same to
`qs[mv_ions, 2:NZ]` (410, 610), and two divalent ions make `cc/denom` a matrix that does not fit its row (411-414,
611-614). -/
def rShapesOk (val : Fin (p + 1) → ℕ) : Prop :=
  2 ≤ p ∧ ((∃ i, val i = 2) → (rMv val).card ≠ 1 ∧ (rDv val).card = 1)

/-- `C_star` (or one bead point of `Cpore`) at an axial point beyond the inlet, Ion_Exchange_Model.R:408-434, 603-641.
`w` is the number of the axial point counted from the first one beyond the inlet. With one divalent ion
`qs[dv_ions, 2:NZ] / KxA[dv_ions]` is the sum over the divalent ions. -/
def rCstar (K : Fin (p + 1) → ℝ) (val : Fin (p + 1) → ℕ) (q : Fin (p + 1) → ℝ) (CT : ℝ) (w : ℕ) : Fin (p + 1) → ℝ :=
  open Classical in
  if ∃ i, val i = 2 then
    let cc := -CT
    let bb := 1 + 1 / q 0 * ∑ i ∈ rMv val, q i / K i
    let aa := ∑ i ∈ rDv val, 1 / q 0 ^ 2 * q i / K i
    let denom := -bb - Real.sqrt (bb ^ 2 - 4 * aa * cc)
    let c1 := 2 * (cc / denom)
    Fin.cases c1 fun i => q i.succ / recyc (fun j => K j.succ) (i + p * w) * (c1 / q 0) ^ val i.succ
  else
    let s := (∑ i, q i / K i) / CT
    Fin.cases 0 fun i => q i.succ / K i.succ / s

/-- `J`, Ion_Exchange_Model.R:437-439, 645-648, beyond the inlet. -/
def rFlux (kL C Cs : Fin (p + 1) → ℝ) (w : ℕ) : Fin (p + 1) → ℝ :=
  let j : Fin p → ℝ := fun i => -recyc (fun j => kL j.succ) (i + p * w) * (C i.succ - Cs i.succ)
  Fin.cases (-∑ i, j i) j

/-- Rate of the liquid, Ion_Exchange_Model.R:404, 441-443, 599, 650-652; `tc` is 1. -/
def rLiq (P : ColParams r p z) (C J : Fin (p + 1) → Fin (z + 1) → ℝ) (i : Fin (p + 1)) (w : Fin (z + 1)) : ℝ :=
  (-P.v / P.L * (∑ w', P.Az w w' * C i w') + (1 - P.EBED) * (3 / P.rb * J i w)) / P.EBED * 1

/-- `dq_dt` of the counter-ions, Ion_Exchange_Model.R:447-454: the vector `Ds[2:NION] * tc / rb**2` meets the array
`BR_q[ , 2:NION, ]`, whose first dimension is the bead point. -/
def rBeadH (P : ColParams r p z) (q : Fin (r + 1) → Fin (p + 1) → Fin (z + 1) → ℝ) (k : Fin (r + 1)) (i : Fin p)
    (w : Fin (z + 1)) : ℝ :=
  recyc (fun j => P.Ds j.succ * 1 / P.rb ^ 2) (k + (r + 1) * (i + p * w)) * ∑ l, P.Br k l * q l i.succ w

/-- `dY_dt` of the counter-ions, Ion_Exchange_Model.R:655-666. -/
def rBeadP (P : ColParams r p z) (Y Cp : Fin (r + 1) → Fin (p + 1) → Fin (z + 1) → ℝ) (k : Fin (r + 1)) (i : Fin p)
    (w : Fin (z + 1)) : ℝ :=
  1 * (recyc (fun j => P.EPOR * (P.Dp j.succ - P.Ds j.succ)) (k + (r + 1) * (i + p * w)) * (∑ l, P.Br k l * Cp l i.succ w) +
    recyc (fun j => P.Ds j.succ) (k + (r + 1) * (i + p * w)) * ∑ l, P.Br k l * Y l i.succ w) / P.rb ^ 2

/-- Assembly of `dx_dt`, Ion_Exchange_Model.R:443, 456-463, 652, 668-676: nothing moves at the inlet; the reference ion is
minus the sum of the others; the surface follows from the flux and the rest of the bead. -/
def rAssemble (P : ColParams r p z) (dC J : Fin (p + 1) → Fin (z + 1) → ℝ)
    (dq : Fin (r + 1) → Fin p → Fin (z + 1) → ℝ) : RState r p z :=
  fun a i w =>
    if w = 0 then 0
    else
      let all : Fin (r + 1) → ℝ := fun k => Fin.cases (-∑ j, dq k j w) (fun j => dq k j w) i
      Fin.lastCases (dC i w) (fun k : Fin (r + 1) =>
        if k = Fin.last r then (-1 / P.rb * J i w - ∑ k' : Fin r, P.Wr k'.castSucc * all k'.castSucc) / P.Wr (Fin.last r)
        else all k) a

/-- `diffun` of `HSDMIX_solve`, Ion_Exchange_Model.R:380-466; `cin` is the influent at `t`. `CT_test` is taken before the
influent is written, but only used beyond the inlet. -/
def rHsdmDiffun (P : ColParams r p z) (cin : Fin (p + 1) → ℝ) (x : RState r p z) : Option (RState r p z) :=
  open Classical in
  if rShapesOk P.val then
    let CT := fun w => ∑ i, x (Fin.last (r + 1)) i w
    let C := fun i w => if w = 0 then cin i else x (Fin.last (r + 1)) i w
    let q := fun (k : Fin (r + 1)) i w => x k.castSucc i w
    let J : Fin (p + 1) → Fin (z + 1) → ℝ := fun i w =>
      rFlux P.kL (fun i => C i w) (rCstar P.K P.val (fun i => q (Fin.last r) i w) (CT w) (w - 1)) (w - 1) i
    some (rAssemble P (rLiq P C J) J (rBeadH P q))
  else none

/-- `diffun` of `PSDMIX_solve`, Ion_Exchange_Model.R:574-680. -/
def rPsdmDiffun (P : ColParams r p z) (cin : Fin (p + 1) → ℝ) (x : RState r p z) : Option (RState r p z) :=
  open Classical in
  if rShapesOk P.val then
    let CT := fun w => ∑ i, x (Fin.last (r + 1)) i w
    let C := fun i w => if w = 0 then cin i else x (Fin.last (r + 1)) i w
    let Y := fun (k : Fin (r + 1)) i w => x k.castSucc i w
    let Cp : Fin (r + 1) → Fin (p + 1) → Fin (z + 1) → ℝ := fun k i w =>
      rCstar P.K P.val (fun i => Y k i w / (1 - P.EPOR)) (CT w) (w - 1) i
    let J : Fin (p + 1) → Fin (z + 1) → ℝ := fun i w =>
      rFlux P.kL (fun i => C i w) (fun i => Cp (Fin.last r) i w) (w - 1) i
    some (rAssemble P (rLiq P C J) J (rBeadP P Y Cp))
  else none

/-- `x0`, Ion_Exchange_Model.R:366-370, 560-564. -/
def rInit (Q : ℝ) (c0 : Fin (p + 1) → ℝ) : RState r p z :=
  fun a i w => Fin.lastCases
    (if w = 0 then c0 i else if i = 0 then ∑ j, c0 j else 0)
    (fun _ : Fin (r + 1) => if i = 0 then Q else 0) a

/-- The charge balance looked at after the run, Ion_Exchange_Model.R:479, 693: totals of the surface and of the bead point
below it at the outlet. `all.equal` allows a difference of `tol` relative to
its first argument. When it fails the results are replaced by
zeros. -/
def rReport (Q tol : ℝ) (xs : List (RState (r + 1) p z)) : List (RState (r + 1) p z) :=
  open Classical in
  match xs.getLast? with
  | none => []
  | some x =>
    let s := ∑ i, x (Fin.last (r + 1)).castSucc i (Fin.last z)
    let s' := ∑ i, x (Fin.last r).castSucc.castSucc i (Fin.last z)
    if |s - Q| ≤ tol * |s| ∧ |s' - Q| ≤ tol * |s'| then xs
    else xs.map fun _ => 0

end
end WTM
