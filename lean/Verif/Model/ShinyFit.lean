import Verif.Model.GacRunAll

/-! `run_all` in the copy of the carbon column that comes with the web application, Shiny-GAC/psdm/PSDM.py:796-1010: as in
GacRunAll.lean, except for the trial, which does not put `K` and `1/n` into the table (889-892; the lines 891-892 of PSDM/psdm/PSDM.py are
not there). `run_psdm_kfit` is the same in both. -/
set_option autoImplicit false
namespace WTM
noncomputable section

/-- One trial, Shiny-GAC/psdm/PSDM.py:889-895. -/
def saTrial (S : Sim) (c : String) (km : ℝ → ℝ) (k xn : ℝ) (o : GacObj) :
    Except PyErr (ℝ × ℝ × ℝ) × GacObj :=
  let r := runKfit S { o with testRange := [k * km xn], xnRange := [xn] } c
  (r.1.map fun out => (k, out.xn, (out.ssqs.headD (0, 0, 0)).2.2), r.2)

/-- The trials of one loop, Shiny-GAC/psdm/PSDM.py:886-895. -/
def saTrials (S : Sim) (c : String) (km : ℝ → ℝ) :
    List (ℝ × ℝ) → GacObj → List (ℝ × ℝ × ℝ) → Except PyErr (List (ℝ × ℝ × ℝ)) × GacObj
  | [], o, rows => (.ok rows, o)
  | (k, xn) :: rest, o, rows =>
    match saTrial S c km k xn o with
    | (.error e, o') => (.error e, o')
    | (.ok row, o') => saTrials S c km rest o' (rows ++ [row])

/-- A loop up to the choice and the new bounds, Shiny-GAC/psdm/PSDM.py:883-957. -/
def saLoop (S : Sim) (findMin : List (ℝ × ℝ × ℝ) → Except PyErr (ℝ × ℝ)) (xr kr : List ℝ) (c : String) (km : ℝ → ℝ) (st : Stage)
    (o : GacObj) : Except PyErr ((ℝ × ℝ) × Stage) × GacObj :=
  match saTrials S c km (kr.flatMap fun k => xr.map fun x => (k, x)) o [] with
  | (.error e, o') => (.error e, o')
  | (.ok rows, o') => (raRefine findMin xr kr rows st, o')

end
end WTM
