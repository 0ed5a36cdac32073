import Verif.Model.GacState

/-! What `run_psdm` reads of the column object (PSDM.py:1332-1347, 1379-1383): geometry, carbon and water. The object's
values are those computed at construction, PSDM.py:192-219. -/
set_option autoImplicit false
namespace WTM
noncomputable section

/-- The column as `run_psdm` sees it, PSDM.py:1338-1347, 1379-1383, 1392 (`self.re`). -/
def gacColOf (dw vw : ℝ) (organicFree : Bool) (g : Geom) : GacCol where
  epor := g.epor
  rhop := g.rhop
  ebed := (derive dw vw g).ebed
  tau := (derive dw vw g).tau
  rad := g.rad
  psdfr := g.psdfr
  tortu := g.tortu
  vw := vw
  dw := dw
  re := (derive dw vw g).re
  organicFree := organicFree

end
end WTM
