import Verif.Model.RIexApp

/-! What the two graphs of the ion exchange web application are drawn from, `Shiny-IEX/Ion_Exchange_Model.R`: the tables of the computed
curves (`rCounterRows`, `rOtherRows` of `Model/RWeb`), of the effluent and of the influent go through the three boxes the user ticks and
through filters by name. A row is a name with its data; a row of `NA` is `none`. Colours and layout are not modelled. -/
set_option autoImplicit false
namespace WTM
variable {α : Type}

/-- Names in `create_plotly`, Ion_Exchange_Model.R:813, and `create_plotly2`, 837. -/
def rGraphNames : List String := ["CHLORIDE", "SULFATE", "NITRATE", "BICARBONATE"]

/-- Names of measured effluents there, Ion_Exchange_Model.R:814, 838. -/
def rGraphEffNames : List String := ["CHLORIDE_effluent", "SULFATE_effluent", "NITRATE_effluent", "BICARBONATE_effluent"]

/-- Names of influents, Ion_Exchange_Model.R:2459-2460, 2466-2467. -/
def rGraphInfNames : List String := ["SULFATE_influent", "CHLORIDE_influent", "NITRATE_influent", "BICARBONATE_influent"]

/-- `subset(frame, name %in% names)`, Ion_Exchange_Model.R:813-814: `NA %in% names` is false. -/
def rSubsetIn (names : List String) (rows : List (Option (String × α))) : List (Option (String × α)) :=
  rows.filter fun o => match o with
    | none => false
    | some x => names.contains x.1

/-- `subset(frame, !(name %in% names))`, Ion_Exchange_Model.R:837-838: rows of `NA` stay. -/
def rSubsetOut (names : List String) (rows : List (Option (String × α))) : List (Option (String × α)) :=
  rows.filter fun o => match o with
    | none => true
    | some x => !names.contains x.1

/-- `subset(dat, name != … & name != …)`, Ion_Exchange_Model.R:2464-2469: a comparison with `NA` is `NA`, and `subset` drops the row. -/
def rSubsetNe (names : List String) (rows : List (Option (String × α))) : List (Option (String × α)) :=
  rows.filter fun o => match o with
    | none => false
    | some x => !names.contains x.1

/-- The tables by the boxes, Ion_Exchange_Model.R:2398-2453: one row of `NA` for a box that is not ticked. -/
def rTicked (ticked : Bool) (rows : List (Option (String × α))) : List (Option (String × α)) := if ticked then rows else [none]

/-- The three traces of a graph. -/
structure RGraph (α : Type) where
  computed : List (Option (String × α))
  effluent : List (Option (String × α))
  influent : List (Option (String × α))

/-- `fig`, Ion_Exchange_Model.R:2457-2462, 2473-2479 with `create_plotly`, 809-830. -/
def rGraphCounter (bc be bi : Bool) (comp eff inf : List (Option (String × α))) : RGraph α :=
  ⟨rSubsetIn rGraphNames (rTicked bc comp), rSubsetIn rGraphEffNames (rTicked be eff), rSubsetIn rGraphInfNames (rTicked bi inf)⟩

/-- `bonusfig`, Ion_Exchange_Model.R:2464-2469, 2492 with `create_plotly2`, 835-847. -/
def rGraphOther (bc be bi : Bool) (comp eff inf : List (Option (String × α))) : RGraph α :=
  ⟨rSubsetOut rGraphNames (rTicked bc comp), rSubsetOut rGraphEffNames (rTicked be eff), rSubsetNe rGraphInfNames (rTicked bi inf)⟩

end WTM
