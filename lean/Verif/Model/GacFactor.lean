import Verif.Model.GacColumn

/-! The divisions of `run_psdm` that have no result: the tortuosity factor at equal diffusivities (PSDM.py:1517) and what becomes of the rates. -/
set_option autoImplicit false
namespace WTM
noncomputable section

variable {n r z : ℕ}

open Classical in
/-- An entry of `facA`, PSDM.py:1517. `d` is a numpy number, so a division by zero gives nan or an infinity, here `none`. -/
def facEntry (tort d : ℝ) : Option ℝ := if 1 - d = 0 then none else some (facAOf tort d)

open Classical in
/-- `diffun` with such entries, PSDM.py:1550, 1578-1599, with at least one bead point below the surface: the sum over the pore concentrations is multiplied by
the factor (1579), and `bedp` is zero where the factor has no value (1459), so the product is nan and with it every rate of the beads of the compound. -/
def gacRates (D : GacDim n (r + 1) z) (cinfl foul : Fin n → ℝ) (fac : Fin n → Option ℝ) (y : GacState n (r + 1) z) : Option (GacState n (r + 1) z) :=
  if h : ∀ i, (fac i).isSome then some (gacRhs D cinfl foul (fun i => (fac i).get (h i)) y) else none

end
end WTM
