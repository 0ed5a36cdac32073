import Verif.Model.RIexApp
import Verif.Model.RPac

/-! Model of the three web applications with several windows open at once: one process and one directory `temp_file`
(`Shiny-IEX/Ion_Exchange_Model.R`, `Shiny-GAC/GACapp.R`, `Shiny-PAC/PACapp.R`). Reading of workbooks and actions within a session are those of
RIexApp.lean, RGac.lean and RPac.lean.

`session$reload()` asks the browser to load the page again; the new session begins when the browser does, and other windows may act
before. R runs one observer at a time. Uploads are possible whether or not a window is open; this gives more runs than there are. -/
set_option autoImplicit false
namespace WTM
noncomputable section

/-- An application: what reading a workbook does to the files, what a session starts with, what an action does to its own session, and what
it writes to the files. -/
structure RWeb (F B S E : Type) where
  read : F → B → F
  start : F → S
  act : S → E → S
  write : S → E → F → F

/-- Events, each in one window: the page is loaded, a workbook uploaded, or something else done. -/
inductive RWebEv (B E : Type) where
  | opens (i : ℕ)
  | upload (i : ℕ) (b : B)
  | acts (i : ℕ) (e : E)

variable {F B S E : Type}

/-- One event, with the files and the sessions by window. -/
def RWeb.step (W : RWeb F B S E) (s : F × (ℕ → Option S)) : RWebEv B E → F × (ℕ → Option S)
  | .opens i => (s.1, Function.update s.2 i (some (W.start s.1)))
  | .upload _ b => (W.read s.1 b, s.2)
  | .acts i e =>
    match s.2 i with
    | none => s
    | some x => (W.write x e s.1, Function.update s.2 i (some (W.act x e)))

/-- The application started with the files `f`, then events. -/
def RWeb.exec (W : RWeb F B S E) (f : F) (evs : List (RWebEv B E)) : F × (ℕ → Option S) := evs.foldl W.step (f, fun _ => none)

/-- The ion-exchange application, Ion_Exchange_Model.R:1777-1830, 2086-2142; `screen` is what the tables become on the screen. Editing and
running write no files; uploads are events of their own here. -/
def rIexWeb {T : Type} (noEff : T) (screen : RIexFiles T → RIexIn) (solve : RIexIn → Except PyErr (List (List ℝ))) :
    RWeb (RIexFiles T) (RIexBook T) RIexSess RIexEv where
  read := rIexRead noEff
  start f := ⟨screen f, none, none⟩
  act s e := match e with
    | .upload _ => s
    | e => rIexStep solve s e
  write _ _ f := f

/-- The powdered carbon application, PACapp.R:522-543; a session is what it keeps, starting from the files. -/
def rPacWeb {T S E : Type} (screen : RPacFiles T → S) (act : S → E → S) : RWeb (RPacFiles T) (RBook T) S E where
  read := rPacRead
  start := screen
  act := act
  write _ _ f := f

/-- The carbon application, GACapp.R:889-915, 1180-1195. The button "Use" writes the isotherms on the screen, the fitted ones and, unless
those are empty, the types of water and compounds; it leaves the page
to be loaded again. Uploads and loading the page are events of their own here. -/
def rGacWeb {T R : Type} (A : RGacApp T R) : RWeb (RGacFiles T) (RGacBook T) (RGacSess T R) (RGacEv T) where
  read := rGacRead
  start := A.start
  act s e := match e with
    | .use => s
    | .upload _ => s
    | .reload => s
    | e => A.step s e
  write s e f := match e with
    | .use =>
      let new := (s.fit.map (·.2)).getD A.zeros
      { f with k2 := s.k, k := new, foul := if A.empty new then f.foul else (s.form.wfoul, s.form.cfoul) }
    | _ => f

end
end WTM
