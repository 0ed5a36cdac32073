import Verif.Model.Pac

/-! Model of the third analytical solution of `get_analytical_sol2` in `Shiny-PAC/PAC.py`: diffusion in the particle together with
the film, in a bath of finite size. The root finder `brentq` is a parameter that may raise (`none`: the ends of its bracket have the
same sign). -/
set_option autoImplicit false
namespace WTM
noncomputable section

/-- `f` of `find_pn`, PAC.py:662-665. -/
def pnFun (A B x : ℝ) : ℝ :=
  let numer := 3 - (1 - A) / A * x ^ 2 / B
  let denom := 3 + (1 - A) / A * (B - 1) / B * x ^ 2
  numer / denom - Real.tan x / x

/-- `brentq(f, a, b)`, PAC.py:672, 678, 686; `none` when it raises. -/
abbrev RootFinder := (ℝ → ℝ) → ℝ → ℝ → Option ℝ

/-- The two attempts of the first pass, PAC.py:669-681. A failing attempt leaves the roots as they are. -/
def pnFirst (brentq : RootFinder) (f : ℝ → ℝ) (guess : ℝ) : List ℝ :=
  (brentq f guess ((guess + Real.pi * 0.9999) / 2)).toList ++
    (brentq f ((guess + Real.pi * 0.9999) / 2) (guess + Real.pi * 0.9999)).toList

/-- The loop of `find_pn`, PAC.py:667-686: passes still to do, `guess` and `roots`. `none` is the exception of line 686. -/
def pnLoop (brentq : RootFinder) (f : ℝ → ℝ) : ℕ → ℝ → List ℝ → Option (List ℝ)
  | 0, _, roots => some roots
  | n + 1, guess, roots =>
    let roots := if roots = [] then pnFirst brentq f guess else roots
    let guess := if roots = [] then guess else guess + Real.pi
    match brentq f guess (guess + Real.pi * 0.9999) with
    | none => none
    | some x => pnLoop brentq f n guess (roots ++ [x])

/-- `find_pn`, PAC.py:657-689. -/
def findPn (brentq : RootFinder) (n : ℕ) (A B : ℝ) : Option (List ℝ) :=
  pnLoop brentq (pnFun A B) n (Real.pi / 2 + 0.000001) []

/-- `Bi` of `finiteHSDM`, PAC.py:740. -/
def hsdmBi (kf Ds rb Kd : ℝ) : ℝ := kf * rb / Ds / Kd

/-- `LAM` of `finiteHSDM`, PAC.py:741. -/
def hsdmLam (Vw Vx Kd : ℝ) : ℝ := 1 / (1 + Vw / Vx / Kd)

/-- The series of `finiteHSDM` with given roots, PAC.py:744-756. `np.e ** x` is the exponential. -/
def hsdmSum (q : List ℝ) (LAM Bi Ds rb t : ℝ) : ℝ :=
  1 - (q.map fun x => 6 * Real.exp (-Ds * t * x ^ 2 / rb ^ 2) /
    (9 * LAM / (1 - LAM) + (1 - LAM) * x ^ 2 - (5 * LAM + 1) * x ^ 2 / Bi + (1 - LAM) * x ^ 4 / Bi ^ 2)).sum

/-- `finiteHSDM`, PAC.py:734-756; `none` when the search for roots raises. -/
def finiteHsdm (brentq : RootFinder) (kf Ds rb Vw Vx Kd : ℝ) (nterms : ℕ) : Option (ℝ → ℝ) :=
  (findPn brentq nterms (hsdmLam Vw Vx Kd) (hsdmBi kf Ds rb Kd)).map fun q t =>
    hsdmSum q (hsdmLam Vw Vx Kd) (hsdmBi kf Ds rb Kd) Ds rb t

/-- `F_hsdm` for all compounds, PAC.py:792-807: a list of `(kf, Ds, Kd)`; NaN for all of them when one fails. -/
def hsdmCurves (brentq : RootFinder) (dosage density rb : ℝ) (comps : List (ℝ × ℝ × ℝ)) : List (Option (ℝ → ℝ)) :=
  let fs := comps.map fun c => finiteHsdm brentq c.1 c.2.1 rb 1 (dosage / (density * 1e6)) c.2.2 10
  if fs.all Option.isSome then
    (fs.zip comps).map fun x => x.1.map fun f t => 1 - f t * pacDepl (pacA dosage density x.2.2.2)
  else comps.map fun _ => none

end
end WTM
