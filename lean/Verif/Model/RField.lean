import Mathlib.Algebra.Order.Round
import Verif.Model.RGac
import Verif.Model.RIexApp
import Verif.Model.RPac

/-! Model of the numeric fields of the three web applications: `shinyWidgets::autonumericInput` with `decimalPlaces`
(`Shiny-IEX/Ion_Exchange_Model.R`, `Shiny-GAC/GACapp.R`, `Shiny-PAC/PACapp.R`).

The field is drawn by the library autoNumeric in the browser. It is assumed to do what its documentation says: a number that is typed, or sent
by `updateNumericInput`, is rounded to `decimalPlaces` decimals, halves away from zero, and `input$…` is the rounded number. The limits
of the library (up to 10¹³) are not considered. -/
set_option autoImplicit false
namespace WTM
noncomputable section

/-- A field with `decimalPlaces = d`: what it holds after `x` was typed or sent. -/
def rField (d : ℕ) (x : ℝ) : ℝ :=
  if x < 0 then -((round (-x * 10 ^ d) : ℤ) / 10 ^ d) else (round (x * 10 ^ d) : ℤ) / 10 ^ d

/-- The fields of the ion-exchange application, Ion_Exchange_Model.R:1397-1442 and 1461-1493. The numbers of collocation points are
sliders. -/
def rIexField (f : RIexForm) : RIexForm :=
  { f with
    Q := rField 2 f.Q
    rbv := rField 5 f.rbv
    ebed := rField 3 f.ebed
    epor := rField 3 f.epor
    Lv := rField 3 f.Lv
    Vv := rField 3 f.Vv
    Dv := rField 3 f.Dv
    Fv := rField 5 f.Fv }

/-- The form on the screen when the observer of the velocity has come to rest, Ion_Exchange_Model.R:1974-1983: the velocity it sends goes
through the field too. -/
def rIexShown (f : RIexForm) : RIexForm := rIexField (rIexSettle (rIexField f))

/-- The fields of the carbon application, GACapp.R:659-793. -/
def rGacField (f : RGacForm) : RGacForm :=
  { f with
    prv := rField 4 f.prv
    epor := rField 3 f.epor
    pd := rField 3 f.pd
    ad := rField 3 f.ad
    psdfr := rField 3 f.psdfr
    Lv := rField 3 f.Lv
    Vv := rField 3 f.Vv
    Dv := rField 3 f.Dv
    Fv := rField 2 f.Fv
    wv := rField 3 f.wv
    tortu := rField 3 f.tortu }

/-- The fields of the powdered carbon application, PACapp.R:297-368, 400-433. Times and dose are sliders. -/
def rPacField (f : RPacForm) : RPacForm :=
  { f with
    temp := rField 3 f.temp
    ld := rField 4 f.ld
    height := rField 3 f.height
    vol := rField 3 f.vol
    flow := rField 3 f.flow
    den := rField 4 f.den
    por := rField 3 f.por
    rad := rField 5 f.rad }

end
end WTM
