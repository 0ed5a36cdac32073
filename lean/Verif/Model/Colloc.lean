import Mathlib.Data.Real.Sqrt
import Mathlib.LinearAlgebra.Matrix.NonsingularInverse

/-! Model of `IonExchangeModel/ixpy/colloc.py` and of the collocation part of
`PSDM/psdm/PSDM_functions.py` (`calc_solver_matrix`, 516-668).

`Shiny-PAC/PAC.py` carries copies of the same functions: `recur`, `calc_px_column`, `recur_colloc` and `recur_colloc_symm` (175-313) are
those of colloc.py, `build_colloc` (142-172) is that of PSDM_functions.py, and `Qinv_weights_symm` (105-139) is `sW` below at the square
roots of the nodes of `radialNodes`.

Node positions come from `scipy.special` root finders; they are parameters here. Arrays are functions
on `Fin n`. -/
set_option autoImplicit false
namespace WTM
noncomputable section
open BigOperators

/-- `recur`, colloc.py:29-42. -/
def recur (p : ℝ × ℝ × ℝ) (H : ℝ) : ℝ × ℝ × ℝ :=
  (H * p.1, H * p.2.1 + 2 * p.1, H * p.2.2 + 3 * p.2.1)

/-- `calc_px_column`, colloc.py:45-65. `(roots - root_i).nonzero()` keeps the roots whose value
differs from `root_i`. -/
def pxColumn (xi : ℝ) (roots : List ℝ) : ℝ × ℝ × ℝ :=
  (roots.filter (fun r => decide (r - xi ≠ 0))).foldl (fun p r => recur p (xi - r)) (1, 0, 0)

/-- Columns of `px_mat` (colloc.py:86-89 and 134-137). -/
def px {n : ℕ} (x : Fin n → ℝ) (i : Fin n) : ℝ × ℝ × ℝ := pxColumn (x i) (List.ofFn x)

/-- `Amat`, colloc.py:95-102 and 143-150. -/
def aMat {n : ℕ} (x : Fin n → ℝ) (i j : Fin n) : ℝ :=
  if i = j then (1 / 2) * (px x i).2.1 / (px x i).1
  else (1 / (x i - x j)) * (px x i).1 / (px x j).1

/-- `Bmat`, colloc.py:95-103 and 143-151. -/
def bMat {n : ℕ} (x : Fin n → ℝ) (i j : Fin n) : ℝ :=
  if i = j then (1 / 3) * (px x i).2.2 / (px x i).1
  else (1 / (x i - x j)) * ((px x i).2.1 / (px x j).1 - 2 * aMat x i j)

/-- `rootsx`, colloc.py:129. -/
def symmX {n : ℕ} (u : Fin n → ℝ) (i : Fin n) : ℝ := Real.sqrt (u i)

/-- `Ax`, colloc.py:158. -/
def symmA {n : ℕ} (u : Fin n → ℝ) (i j : Fin n) : ℝ := 2 * symmX u i * aMat u i j

/-- `Bx`, colloc.py:159. -/
def symmB {n : ℕ} (a : ℝ) (u : Fin n → ℝ) (i j : Fin n) : ℝ :=
  2 * a * aMat u i j + u i * 4 * bMat u i j

/-- `W`, colloc.py:161-165. -/
def symmW {n : ℕ} (a : ℝ) (u : Fin n → ℝ) (i : Fin n) : ℝ :=
  (1 / (u i * (px u i).1 ^ 2)) / (∑ k, 1 / (u k * (px u k).1 ^ 2)) / a

/-- Node vector of `recur_colloc` (colloc.py:79-82): 0, the interior roots, 1. The same vector is used
by `build_colloc` (PSDM_functions.py:570-572) and by the single element branch (654-655). -/
def axialNodes {m : ℕ} (leg : Fin m → ℝ) : Fin (m + 2) → ℝ :=
  Fin.cons 0 (Fin.snoc (α := fun _ => ℝ) leg 1)

/-- Node vector of `recur_colloc_symm` in the squared variable (colloc.py:122-128): the interior roots,
then 1. Also `rr` of PSDM (PSDM_functions.py:644-645). -/
def radialNodes {m : ℕ} (jac : Fin m → ℝ) : Fin (m + 1) → ℝ :=
  Fin.snoc (α := fun _ => ℝ) jac 1

/-! ### PSDM: inverse of a Vandermonde matrix -/

/-- `Qmat`, `Cmat`, `Dmat` of `build_colloc` (PSDM_functions.py:574-584). -/
def vQ {n : ℕ} (x : Fin n → ℝ) : Matrix (Fin n) (Fin n) ℝ := fun i j => x i ^ (j : ℕ)
def vC {n : ℕ} (x : Fin n → ℝ) : Matrix (Fin n) (Fin n) ℝ :=
  fun i j => if (j : ℕ) < 1 then 0 else (j : ℕ) * x i ^ ((j : ℕ) - 1)
def vD {n : ℕ} (x : Fin n → ℝ) : Matrix (Fin n) (Fin n) ℝ :=
  fun i j => if (j : ℕ) < 2 then 0 else (j : ℕ) * ((j : ℕ) - 1) * x i ^ ((j : ℕ) - 2)

/-- `Amat`, `Bmat` of `build_colloc` (586-588); `np.linalg.inv` is the matrix inverse. -/
def vA {n : ℕ} (x : Fin n → ℝ) : Matrix (Fin n) (Fin n) ℝ := vC x * (vQ x)⁻¹
def vB {n : ℕ} (x : Fin n → ℝ) : Matrix (Fin n) (Fin n) ℝ := vD x * (vQ x)⁻¹

/-- `q`, `c` of `dupoly` (546-562): powers of `2x-1` and their derivatives (`d` is not used). -/
def uQ {n : ℕ} (x : Fin n → ℝ) : Matrix (Fin n) (Fin n) ℝ := fun i j => (2 * x i - 1) ^ (j : ℕ)
def uC {n : ℕ} (x : Fin n → ℝ) : Matrix (Fin n) (Fin n) ℝ :=
  fun i j => if (j : ℕ) < 1 then 0 else if (j : ℕ) = 1 then 2
    else 2 * (j : ℕ) * (2 * x i - 1) ^ ((j : ℕ) - 1)

/-- `az` of the single element branch (656-658). -/
def uA {n : ℕ} (x : Fin n → ℝ) : Matrix (Fin n) (Fin n) ℝ := uC x * (uQ x)⁻¹

/-- `q`, `f`, `d` of `dspoly` (523-544) at the radii `r`, with `ia` the geometry. -/
def sQ {n : ℕ} (r : Fin n → ℝ) : Matrix (Fin n) (Fin n) ℝ := fun i j => r i ^ (2 * (j : ℕ))
def sF (n : ℕ) (ia : ℝ) (j : Fin n) : ℝ := 1 / (2 * ((j : ℕ) + 1) - 2 + ia)
def sD {n : ℕ} (ia : ℝ) (r : Fin n → ℝ) : Matrix (Fin n) (Fin n) ℝ :=
  fun i j => if (j : ℕ) < 1 then 0 else if (j : ℕ) = 1 then 2 * ia
    else (2 * ((j : ℕ) + 1) - 2) * (2 * ((j : ℕ) + 1) - 4 + ia) * r i ^ (2 * ((j : ℕ) - 1))

/-- `wr`, `br` (647-650). -/
def sW {n : ℕ} (ia : ℝ) (r : Fin n → ℝ) (i : Fin n) : ℝ := ∑ j, sF n ia j * (sQ r)⁻¹ j i
def sB {n : ℕ} (ia : ℝ) (r : Fin n → ℝ) : Matrix (Fin n) (Fin n) ℝ := sD ia r * (sQ r)⁻¹

/-! ### Finite elements -/

/-- `Adv_Op[r0:r1, c0:c1] = Z` on an array read as a function of two indices. -/
def setBlock (A : ℕ → ℕ → ℝ) (r0 r1 c0 c1 : ℕ) (Z : ℕ → ℕ → ℝ) : ℕ → ℕ → ℝ :=
  fun i j => if r0 ≤ i ∧ i < r1 ∧ c0 ≤ j ∧ j < c1 then Z (i - r0) (j - c0) else A i j

/-- `Adv_Op[r, :] = 0`. -/
def zeroRow (A : ℕ → ℕ → ℝ) (r : ℕ) : ℕ → ℕ → ℝ := fun i j => if i = r then 0 else A i j

/-- Number of axial points, colloc.py:200. -/
def advNZ (NE NP : ℕ) : ℤ := (NE : ℤ) * NP - (NE - 1)

/-- Blocks for element interiors, colloc.py:224-227. -/
def advBlocks (NE NP : ℕ) (Z : ℕ → ℕ → ℝ) : ℕ → ℕ → ℝ :=
  (List.range NE).foldl
    (fun A k => setBlock A (k * NP - k) ((k + 1) * NP - k) (k * NP - k) ((k + 1) * NP - k) Z)
    (fun _ _ => 0)

/-- One continuation point, colloc.py:232-242. -/
def advCont (NP : ℕ) (A0 Z : ℕ → ℕ → ℝ) (A : ℕ → ℕ → ℝ) (k : ℕ) : ℕ → ℕ → ℝ :=
  let l := NP - 1
  let Q := A0 l l - A0 0 0
  let idx := k * NP - k
  let ii := (k + 1) * NP - (k + 1)
  let iii := (k + 2) * NP - (k + 1)
  setBlock
    (setBlock (zeroRow A ii) ii (ii + 1) idx ii (fun _ j => Z l j - Z l l / Q * A0 l j))
    ii (ii + 1) (ii + 1) iii (fun _ j => Z l l / Q * A0 0 (j + 1))

/-- `Adv_Op` of `advect_operator`, colloc.py:214-245 (PSDM_functions.py:606-635 is the same text),
from the single element matrix `A0`. -/
def advOp (NE NP : ℕ) (A0 : ℕ → ℕ → ℝ) : ℕ → ℕ → ℝ :=
  let Z := fun i j => (NE : ℝ) * A0 i j
  zeroRow ((List.range (NE - 1)).foldl (advCont NP A0 Z) (advBlocks NE NP Z)) 0

/-- `np.delete(l, idx)`. -/
def npDelete (l : List ℝ) (idx : List ℕ) : List ℝ :=
  (l.zipIdx.filter (fun p => decide (p.2 ∉ idx))).map Prod.fst

/-- `Xvals`, colloc.py:207-212. -/
def advX (NE NP : ℕ) (roots : List ℝ) : List ℝ :=
  npDelete ((List.range NE).flatMap (fun k : ℕ => roots.map (fun r => r / (NE : ℝ) + (k : ℝ) / (NE : ℝ))))
    ((List.range (NE - 1)).map (fun k : ℕ => NP * (k + 1)))

/-- hsdmix.py:365-369 (and psdmix.py:162-166): with OCFE the number of elements is `int((nz-1)/2)` and each has
3 points. -/
def ocfeNE (nz : ℕ) : ℕ := (nz - 1) / 2

end
end WTM
