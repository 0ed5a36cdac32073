import Verif.Model.Colloc
import Verif.Model.Py

/-! Model of `rad_colloc` and `ax_colloc` of the ion-exchange web application (Shiny-IEX/Ion_Exchange_Model.R:114-296).

The zeros come from the package orthopolynom; they are a parameter here, with the 0 and 1 the code puts around them. `NA` is
`none`. R numbers vectors from one. -/
set_option autoImplicit false
namespace WTM
noncomputable section
open BigOperators

/-- The vectors `p_1`, `p_2`, `p_3`, which the loop over the roots uses again (Ion_Exchange_Model.R:150-152, 247-249). -/
structure RBuf where
  p1 : ℕ → Option ℝ
  p2 : ℕ → Option ℝ
  p3 : ℕ → Option ℝ

/-- `c(1, rep(0, N-1))` and `rep(0, N)`; what is beyond the end is `NA`. -/
def rBuf0 (N : ℕ) : RBuf where
  p1 k := if k = 1 then some 1 else if k ≤ N then some 0 else none
  p2 k := if k ≤ N then some 0 else none
  p3 k := if k ≤ N then some 0 else none

/-- Body of the loop over `j`, Ion_Exchange_Model.R:168-170, 265-267; the assignments one after the other. -/
def rBufStep (delta : List ℝ) (b : RBuf) (j : ℕ) : RBuf :=
  let d := delta[j - 1]?
  let b : RBuf := { b with p1 := fun k => if k = j + 1 then (do return (← d) * (← b.p1 j)) else b.p1 k }
  let b : RBuf := { b with p2 := fun k =>
    if k = j + 1 then (do return (← d) * (← b.p2 j) + 2 * (← b.p1 j)) else b.p2 k }
  { b with p3 := fun k => if k = j + 1 then (do return (← d) * (← b.p3 j) + 3 * (← b.p2 j)) else b.p3 k }

/-- The loop over `j` for the root `xi`, Ion_Exchange_Model.R:157-172, 254-269. -/
def rBufRoot (roots : List ℝ) (xi : ℝ) (b : RBuf) : RBuf :=
  let delta := (roots.filter fun r => decide (r ≠ xi)).map fun r => xi - r
  (List.range (roots.length - 1)).foldl (fun b k => rBufStep delta b (k + 1)) b

/-- Columns `p_1`, `p_2`, `p_3` of `derivatives`, Ion_Exchange_Model.R:142-178, 239-275. With a single root `1:0` counts down
and the assignment for `j = 0` has nothing to assign, an error. -/
def rDerivs (roots : List ℝ) : Except PyErr (List (Option ℝ × Option ℝ × Option ℝ)) :=
  if roots.length ≤ 1 then .error .valueError
  else
    let N := roots.length
    .ok (roots.foldl (fun (s : List (Option ℝ × Option ℝ × Option ℝ) × RBuf) xi =>
      let b := rBufRoot roots xi s.2
      (s.1 ++ [(b.p1 N, b.p2 N, b.p3 N)], b)) ([], rBuf0 N)).1

/-- `derivatives$p_1[i]` and so on. -/
def rDer {n : ℕ} (x : Fin n → ℝ) (i : Fin n) : Option ℝ × Option ℝ × Option ℝ :=
  match rDerivs (List.ofFn x) with
  | .ok l => (l[(i : ℕ)]?).getD (none, none, none)
  | .error _ => (none, none, none)

/-- `Ar`, `AZ`, Ion_Exchange_Model.R:187-195, 282-291. -/
def rA {n : ℕ} (x : Fin n → ℝ) (i j : Fin n) : Option ℝ :=
  if i = j then do return 1 / 2 * (← (rDer x i).2.1) / (← (rDer x i).1)
  else do return 1 / (x i - x j) * (← (rDer x i).1) / (← (rDer x j).1)

/-- `Br`, Ion_Exchange_Model.R:203-211. -/
def rB {n : ℕ} (x : Fin n → ℝ) (i j : Fin n) : Option ℝ :=
  if i = j then do return 1 / 3 * (← (rDer x i).2.2) / (← (rDer x i).1)
  else do return 2 * (← rA x i j) * ((← rA x i i) - 1 / (x i - x j))

/-- `Br_sym`, Ion_Exchange_Model.R:214, the first result of `rad_colloc`. -/
def rBsym {n : ℕ} (u : Fin n → ℝ) (i j : Fin n) : Option ℝ := do
  return 4 * u i * (← rB u i j) + 2 * 3 * (← rA u i j)

/-- `w_i_prime`, Ion_Exchange_Model.R:223. -/
def rWprime {n : ℕ} (u : Fin n → ℝ) (i : Fin n) : Option ℝ := do return 1 / (u i * (← (rDer u i).1) ^ 2)

/-- `W_i_manu`, Ion_Exchange_Model.R:222-224, the second result of `rad_colloc`; the sum is `NA` if an entry is. -/
def rW {n : ℕ} (u : Fin n → ℝ) (i : Fin n) : Option ℝ := do
  let l ← (List.ofFn (rWprime u)).mapM id
  return 1 / (2 + 1) * (← rWprime u i) * 1 / l.sum

/-- `rad_colloc(N)` as a whole: error or both results. -/
def rRadColloc {n : ℕ} (u : Fin n → ℝ) : Except PyErr ((Fin n → Fin n → Option ℝ) × (Fin n → Option ℝ)) :=
  (rDerivs (List.ofFn u)).map fun _ => (rBsym u, rW u)

/-- `ax_colloc(NZ)` as a whole. -/
def rAxColloc {n : ℕ} (x : Fin n → ℝ) : Except PyErr (Fin n → Fin n → Option ℝ) :=
  (rDerivs (List.ofFn x)).map fun _ => rA x

end
end WTM
