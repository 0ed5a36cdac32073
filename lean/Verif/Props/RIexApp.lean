import Mathlib.Tactic
import Verif.Model.RIexApp
import Verif.Props.RIexWeb
import Verif.Props.RGac

/-! C176-C182: server of the ion-exchange web application. -/
set_option autoImplicit false
namespace WTM

/-! ### C176: saved results -/

/-- Milligrams of one milliequivalent. -/
noncomputable def Spec.mgPerMeq (i : RIon) : ℝ := i.mw / i.valence

/-- The saved columns `saved` are the curves, under their names, in the units of the ion sheet. -/
def Spec.SavedInput (ions : List RIon) (curves saved : List (String × List ℝ)) : Prop :=
  List.Forall₂ (fun i p => p.2.1 = p.1.1 ∧ ∃ m, Spec.meq i.mw i.valence i.concUnits = some m ∧ p.2.2.map (· * m) = p.1.2) ions
    (curves.zip saved) ∧ saved.length = curves.length

/-- The saved columns are the curves in `ou`. -/
def Spec.SavedOutput (ou : String) (ions : List RIon) (curves saved : List (String × List ℝ)) : Prop :=
  List.Forall₂ (fun i p => p.2.1 = p.1.1 ∧ ∃ m, Spec.massUnits.lookup ou = some m ∧
    p.2.2.map (· * m) = p.1.2.map (· * Spec.mgPerMeq i)) ions (curves.zip saved) ∧ saved.length = curves.length

/-- Ions with names of their own, units the manual accepts, and curves in their order. -/
def Spec.GoodIons (ions : List RIon) : Prop :=
  (ions.map (·.name)).Nodup ∧ (∀ i ∈ ions, i.concUnits ∈ concMenu) ∧ ∀ i ∈ ions, i.mw ≠ 0 ∧ i.valence ≠ 0

/-- C176. "Input Concentration Units" saves the results in the units of the ion sheet, "Output Concentration Units" in those of the
plot. -/
def C176 : Prop := ∀ (ions : List RIon) (curves : List (String × List ℝ)) (ou : String), Spec.GoodIons ions →
  curves.map (·.1) = ions.map (·.name) → ou ∈ ["mg/L", "ug/L", "ng/L"] →
  (∃ saved, rIexSave true ions curves = some saved ∧ Spec.SavedInput ions curves saved) ∧
  ∃ saved, rIexSave false ions curves = some saved ∧ Spec.SavedOutput ou ions curves saved

theorem filter_pfoa {ions : List RIon} (hn : (ions.map (·.name)).Nodup) {p : RIon} (hp : p ∈ ions) (he : p.name = "PFOA") :
    ions.filter (fun i => decide (i.name = "PFOA")) = [p] := by
  induction ions with
  | nil => cases hp
  | cons a l ih =>
    rw [List.map_cons, List.nodup_cons] at hn
    rcases List.mem_cons.1 hp with rfl | hp
    · rw [List.filter_cons_of_pos (by simpa using he)]
      congr 1
      rw [List.filter_eq_nil_iff]
      intro b hb e
      exact hn.1 (List.mem_map.2 ⟨b, hb, (of_decide_eq_true e).trans he.symm⟩)
    · rw [List.filter_cons_of_neg, ih hn.2 hp]
      simp only [decide_eq_true_eq]
      intro e
      exact hn.1 (List.mem_map.2 ⟨p, hp, he.trans e.symm⟩)

theorem outMgl_saved {ions : List RIon} {curves : List (String × List ℝ)} (hc : curves.length = ions.length) :
    Spec.SavedOutput "mg/L" ions curves (rOutMgl ions curves) := by
  unfold Spec.SavedOutput rOutMgl
  constructor
  · induction ions generalizing curves with
    | nil => cases curves with
      | nil => exact .nil
      | cons => simp at hc
    | cons i ions ih => cases curves with
      | nil => simp at hc
      | cons c curves =>
        refine .cons ⟨rfl, 1, rfl, ?_⟩ (ih (by simpa using hc))
        simp only [mul_one, List.map_id']
        rfl
  · simp [hc]

/-- C176, as far as it holds: one ion is called PFOA and given in ng, all others are in meq, and the plot is in mg/L. Missing: the other
units of the ion sheet, which are saved in meq; the other units of the plot, which are saved in mg/L; ion sheets without PFOA, for which
nothing can be saved. -/
theorem c176_partial (ions : List RIon) (curves : List (String × List ℝ)) (hi : Spec.GoodIons ions)
    (hc : curves.map (·.1) = ions.map (·.name)) (p : RIon) (hp : p ∈ ions) (hpn : p.name = "PFOA") (hpu : p.concUnits = "ng")
    (ho : ∀ i ∈ ions, i.name ≠ "PFOA" → i.concUnits = "meq") :
    (∃ saved, rIexSave true ions curves = some saved ∧ Spec.SavedInput ions curves saved) ∧
    ∃ saved, rIexSave false ions curves = some saved ∧ Spec.SavedOutput "mg/L" ions curves saved := by
  have hl : curves.length = ions.length := by simpa using congrArg List.length hc
  have hm : rMeqNg ions curves = some (curves.map fun c =>
      if c.1 = "PFOA" then (c.1, c.2.map fun x => x * (p.mw / p.valence) / 1e-6) else c) := by
    unfold rMeqNg
    rw [filter_pfoa hi.1 hp hpn]
  refine ⟨⟨_, by unfold rIexSave; rw [hm]; rfl, ?_⟩, _, by unfold rIexSave; rw [hm]; rfl, outMgl_saved hl⟩
  simp only [if_true]
  refine ⟨?_, by simp⟩
  have hpm := hi.2.2 p hp
  have key : ∀ (ions' : List RIon) (curves' : List (String × List ℝ)), (∀ i ∈ ions', i ∈ ions) →
      curves'.map (·.1) = ions'.map (·.name) →
      List.Forall₂ (fun (i : RIon) (q : (String × List ℝ) × String × List ℝ) => q.2.1 = q.1.1 ∧
        ∃ m, Spec.meq i.mw i.valence i.concUnits = some m ∧ q.2.2.map (· * m) = q.1.2) ions'
        (curves'.zip (curves'.map fun c => if c.1 = "PFOA" then (c.1, c.2.map fun x => x * (p.mw / p.valence) / 1e-6) else c)) := by
    intro ions'
    induction ions' with
    | nil =>
      intro curves' _ h
      cases curves' with
      | nil => exact .nil
      | cons => simp at h
    | cons i l ih =>
      intro curves' hsub h
      cases curves' with
      | nil => simp at h
      | cons c curves' =>
        simp only [List.map_cons, List.cons.injEq] at h
        refine .cons ?_ (ih curves' (fun i h => hsub i (List.mem_cons_of_mem _ h)) h.2)
        have him := hsub i (List.mem_cons_self ..)
        dsimp only
        by_cases hcp : c.1 = "PFOA"
        · have hip : i = p := List.inj_on_of_nodup_map hi.1 him hp (by rw [← h.1, hcp, hpn])
          rw [if_pos hcp, hip]
          refine ⟨rfl, 1 / 1000000 / p.mw * p.valence, ?_, ?_⟩
          · unfold Spec.meq
            rw [hpu, if_neg (by decide)]
            rfl
          · rw [List.map_map]
            conv_rhs => rw [← List.map_id c.2]
            refine List.map_congr_left fun x _ => ?_
            obtain ⟨h1, h2⟩ := hpm
            simp only [Function.comp, id]
            field_simp
            norm_num
            ring
        · rw [if_neg hcp]
          refine ⟨rfl, 1, ?_, by simp⟩
          unfold Spec.meq
          rw [ho i him (fun e => hcp (h.1.trans e)), if_pos rfl]
  exact key ions curves (fun _ h => h) hc

/-- C176. Without an ion of the name PFOA nothing can be saved. -/
theorem c176_nothing (b : Bool) (ions : List RIon) (curves : List (String × List ℝ)) (h : ∀ i ∈ ions, i.name ≠ "PFOA") :
    rIexSave b ions curves = none := by
  unfold rIexSave rMeqNg
  rw [List.filter_eq_nil_iff.2 (by simpa using h)]
  rfl

/-- C176. Whatever the units of the plot, "Output Concentration Units" saves mg/L. -/
theorem c176_output (ions : List RIon) (curves saved : List (String × List ℝ)) (hl : curves.length = ions.length)
    (h : rIexSave false ions curves = some saved) : Spec.SavedOutput "mg/L" ions curves saved := by
  unfold rIexSave at h
  cases hm : rMeqNg ions curves with
  | none => rw [hm] at h; cases h
  | some m =>
    rw [hm] at h
    obtain rfl := Option.some.inj h
    exact outMgl_saved hl

/-- C176 is false: nitrate alone. -/
theorem c176_false : ¬ C176 := by
  intro H
  obtain ⟨⟨s, h, -⟩, -⟩ := H [⟨"NITRATE", 62, 1, "meq"⟩] [("NITRATE", [1])] "mg/L" (by simp [Spec.GoodIons, concMenu]) rfl (by simp)
  rw [c176_nothing _ _ _ (by simp)] at h
  cases h

/-- Chloride in mg and PFOA in ng: chloride is saved in meq, as if it were mg. -/
theorem c176_wrong : ¬ ∃ saved, rIexSave true [⟨"CHLORIDE", 35, 1, "mg"⟩, ⟨"PFOA", 414, 1, "ng"⟩] [("CHLORIDE", [1]), ("PFOA", [0])] =
    some saved ∧ Spec.SavedInput [⟨"CHLORIDE", 35, 1, "mg"⟩, ⟨"PFOA", 414, 1, "ng"⟩] [("CHLORIDE", [1]), ("PFOA", [0])] saved := by
  rintro ⟨s, h, h2, -⟩
  have h' : rIexSave true [⟨"CHLORIDE", 35, 1, "mg"⟩, ⟨"PFOA", 414, 1, "ng"⟩] [("CHLORIDE", [1]), ("PFOA", [0])] =
      some [("CHLORIDE", [1]), ("PFOA", [0 * (414 / 1) / 1e-6])] := rfl
  obtain rfl := Option.some.inj (h'.symm.trans h)
  simp only [List.zip_cons_cons, List.forall₂_cons] at h2
  obtain ⟨⟨-, m, hm, e⟩, -⟩ := h2
  unfold Spec.meq at hm
  rw [if_neg (by decide)] at hm
  have hm : some ((1 : ℝ) / 35 * 1) = some m := hm
  obtain rfl := Option.some.inj hm
  norm_num at e

example : Spec.GoodIons [⟨"CHLORIDE", 35, 1, "meq"⟩, ⟨"PFOA", 414, 1, "ng"⟩] := by simp [Spec.GoodIons, concMenu]

/-! ### C177: parameters there and back -/

/-- C177. Uploading a saved workbook brings back the parameters of the run: for every form, whether it gives the velocity or the flow
rate, and whatever is on the form it is loaded into. -/
theorem c177_roundtrip (f f₀ : RIexForm) (p : RIexParams) (h : rIexParams f = some p) :
    rIexParams (rIexSettle (rIexLoad (rIexSheet (rIexSettle f)) f₀)) = some p := by
  unfold rIexParams at h
  cases hv : rSpeed rFlowIex f.toRHyd with
  | none => rw [hv] at h; cases h
  | some v =>
  have hload : ∀ g : RIexForm, rIexLoad (rIexSheet g) f₀ =
      { g with linear := true, Fv := f₀.Fv, fu := f₀.fu, Dv := f₀.Dv, du := f₀.du, epor := if g.psdm then g.epor else f₀.epor } := by
    intro g
    obtain ⟨⟨_, _, _, _, _, _, _, _, _⟩, psdm, _, _, _, _, _, _, _, _⟩ := g
    cases psdm <;> rfl
  have hset : ∀ g : RIexForm, g.linear = true → rIexSettle g = g := fun g hg => if_pos hg
  rw [hload, hset _ rfl]
  have hspeed : rSpeed rFlowIex { (rIexSettle f).toRHyd with linear := true, Fv := f₀.Fv, fu := f₀.fu, Dv := f₀.Dv, du := f₀.du } =
      some v := by
    by_cases hl : f.linear = true
    · rw [hset f hl]
      unfold rSpeed at hv ⊢
      rw [if_pos hl] at hv
      rw [if_pos rfl]
      exact hv
    · unfold rIexSettle
      rw [if_neg hl, hv]
      unfold rSpeed
      rw [if_pos rfl]
      show some (v * 1) = some v
      rw [mul_one]
  have hrest : (rIexSettle f).lu = f.lu ∧ (rIexSettle f).rbu = f.rbu ∧ (rIexSettle f).tunits = f.tunits ∧ (rIexSettle f).Q = f.Q ∧
      (rIexSettle f).ebed = f.ebed ∧ (rIexSettle f).psdm = f.psdm ∧ (rIexSettle f).epor = f.epor ∧ (rIexSettle f).Lv = f.Lv ∧
      (rIexSettle f).rbv = f.rbv ∧ (rIexSettle f).nr = f.nr ∧ (rIexSettle f).nz = f.nz := by
    unfold rIexSettle
    by_cases hl : f.linear = true
    · rw [if_pos hl]; simp
    · rw [if_neg hl, hv]; simp
  obtain ⟨e1, e2, e3, e4, e5, e6, e7, e8, e9, e10, e11⟩ := hrest
  unfold rIexParams
  simp only at hspeed ⊢
  rw [hspeed, e1, e2, e3, e4, e5, e6, e7, e8, e9, e10, e11, ← h, hv]
  cases f.psdm <;> rfl

/-- C177. The velocity shown next to a flow rate is the one the run uses. -/
theorem c177_settled (f : RIexForm) : rIexParams (rIexSettle f) = rIexParams f := by
  unfold rIexSettle
  by_cases hl : f.linear = true
  · rw [if_pos hl]
  · rw [if_neg hl]
    cases hv : rSpeed rFlowIex f.toRHyd with
    | none => rfl
    | some v =>
      have : rSpeed rFlowIex { f.toRHyd with Vv := v, vu := "cm/s" } = rSpeed rFlowIex f.toRHyd := by
        unfold rSpeed
        simp only [hl, Bool.false_eq_true, if_false]
      unfold rIexParams
      simp only at this ⊢
      rw [this]

/-- A sheet with `flrt` and `diam` and without `v` gives a column by its flow rate. -/
theorem c177_flow (s : RSpecs) (f : RIexForm) (x y : ℝ) (u w : String) (hv : s.lookup "v" = none)
    (hq : s.lookup "flrt" = some (.num x, some u)) (hd : s.lookup "diam" = some (.num y, some w)) :
    ((rIexLoad s f).linear, (rIexLoad s f).Fv, (rIexLoad s f).fu, (rIexLoad s f).Dv, (rIexLoad s f).du) = (false, x, u, y, w) := by
  simp [rIexLoad, rSpecNum, rSpecUnit, hv, hq, hd]

/-- A form whose parameters are all known. -/
example : ∃ p, rIexParams ⟨demoHyd, true, 1400, 0.35, 0.2, 0.03, "cm", 7, 13, "hr"⟩ = some p := ⟨_, rfl⟩


/-! ### C178: the names and units of the results -/

/-- The curves on the screen are, name by name, those of a successful run of the inputs `i`. -/
def Spec.Results (solve : RIexIn → Except PyErr (List (List ℝ))) (i : RIexIn) (c : List (String × List ℝ)) : Prop :=
  ∃ r, solve i = .ok r ∧ c.map (·.1) = i.ions.map (·.name) ∧ c.map (·.2) = r

/-- C178. In every session, curves on the screen are those of an earlier state of the inputs, under the names of its ions. -/
def C178 : Prop := ∀ (solve : RIexIn → Except PyErr (List (List ℝ))),
  (∀ i r, solve i = .ok r → r.length = i.ions.length) → ∀ (i₀ : RIexIn) (evs : List RIexEv) (c : List (String × List ℝ)),
  (rIexExec solve ⟨i₀, none, none⟩ evs).shown = some c → ∃ i, Spec.Results solve i c

theorem rIexExec_snoc (solve : RIexIn → Except PyErr (List (List ℝ))) (s : RIexSess) (evs : List RIexEv) (e : RIexEv) :
    rIexExec solve s (evs ++ [e]) = rIexStep solve (rIexExec solve s evs) e := by
  simp [rIexExec, List.foldl_append]

theorem label_curves {ions : List RIonRow} {out : List (List ℝ)} {c : List (String × List ℝ)} (h : rIexLabel ions out = some c) :
    c.map (·.1) = ions.map (·.name) ∧ c.map (·.2) = out.take ions.length ∧ ions.length ≤ out.length := by
  unfold rIexLabel at h
  by_cases hl : ions.length ≤ out.length
  · rw [if_pos hl] at h
    obtain rfl := Option.some.inj h
    refine ⟨?_, ?_, hl⟩
    · clear h
      induction ions generalizing out with
      | nil => rfl
      | cons a l ih => cases out with
        | nil => simp at hl
        | cons b m => simpa using ih (by simpa using hl)
    · clear h
      induction ions generalizing out with
      | nil => rfl
      | cons a l ih => cases out with
        | nil => simp at hl
        | cons b m => simpa using ih (by simpa using hl)
  · rw [if_neg hl] at h; cases h

theorem label_of_eq {ions : List RIonRow} {out : List (List ℝ)} (h : out.length = ions.length) :
    ∃ c, rIexLabel ions out = some c ∧ c.map (·.1) = ions.map (·.name) ∧ c.map (·.2) = out := by
  refine ⟨_, if_pos h.ge, ?_⟩
  obtain ⟨h1, h2, -⟩ := label_curves (ions := ions) (out := out) (if_pos h.ge)
  exact ⟨h1, by rw [h2, List.take_of_length_le h.le]⟩

/-- C178. Over every session: the curves on the screen are curves of an earlier successful run, position by position from the first ion. -/
theorem c178_results (solve : RIexIn → Except PyErr (List (List ℝ))) (i₀ : RIexIn) (evs : List RIexEv) (c : List (String × List ℝ))
    (h : (rIexExec solve ⟨i₀, none, none⟩ evs).shown = some c) :
    ∃ i r, solve i = .ok r ∧ rIexPasses i = true ∧ (c.map (·.2)) <+: r := by
  have key : ∀ evs : List RIexEv, (∀ r, (rIexExec solve ⟨i₀, none, none⟩ evs).out = some r → ∃ i, solve i = .ok r ∧ rIexPasses i = true) ∧
      ∀ c, (rIexExec solve ⟨i₀, none, none⟩ evs).shown = some c →
        ∃ i r, solve i = .ok r ∧ rIexPasses i = true ∧ (c.map (·.2)) <+: r := by
    intro evs
    induction evs using List.reverseRecOn with
    | nil => exact ⟨fun _ h => by simp [rIexExec] at h, fun _ h => by simp [rIexExec] at h⟩
    | append_singleton evs e ih =>
      rw [rIexExec_snoc]
      obtain ⟨ih1, ih2⟩ := ih
      cases e with
      | edit i => exact ⟨ih1, ih2⟩
      | upload i => exact ⟨fun _ h => by simp [rIexStep] at h, fun _ h => by simp [rIexStep] at h⟩
      | run =>
        set s := rIexExec solve ⟨i₀, none, none⟩ evs with hs
        have hout : ∀ r, (rIexStep solve s .run).out = some r → ∃ i, solve i = .ok r ∧ rIexPasses i = true := by
          intro r hr
          simp only [rIexStep] at hr
          by_cases hp : rIexPasses s.toRIexIn = true
          · rw [if_pos hp] at hr
            cases hv : solve s.toRIexIn with
            | error e => rw [hv] at hr; exact ih1 r hr
            | ok r' =>
              rw [hv] at hr
              obtain rfl := Option.some.inj hr
              exact ⟨_, hv, hp⟩
          · rw [if_neg hp] at hr
            exact ih1 r hr
        refine ⟨hout, fun c hc => ?_⟩
        have hc : (rIexStep solve s .run).out.bind (rIexLabel s.ions) = some c := hc
        cases ho : (rIexStep solve s .run).out with
        | none => rw [ho] at hc; cases hc
        | some r =>
          rw [ho] at hc
          obtain ⟨i, h1, h2⟩ := hout r ho
          obtain ⟨-, h4, -⟩ := label_curves (show rIexLabel s.ions r = some c from hc)
          exact ⟨i, r, h1, h2, h4 ▸ List.take_prefix _ _⟩
  exact (key evs).2 c h

/-- C178, as far as it holds: after a run that passed the checks and succeeded, whatever is edited later, the curves on the screen are
those of that run, under the names of its ions. Missing: a later press of the button that is refused or fails. -/
theorem c178_partial (solve : RIexIn → Except PyErr (List (List ℝ))) (s : RIexSess) (r : List (List ℝ))
    (hp : rIexPasses s.toRIexIn = true) (hs : solve s.toRIexIn = .ok r) (hl : r.length = s.ions.length) (edits : List RIexIn) :
    ∃ c, (rIexExec solve s (.run :: edits.map .edit)).shown = some c ∧ Spec.Results solve s.toRIexIn c := by
  obtain ⟨c, hc, h1, h2⟩ := label_of_eq hl
  refine ⟨c, ?_, r, hs, h1, h2⟩
  have hrun : (rIexStep solve s .run).shown = some c := by
    simp only [rIexStep, if_pos hp, hs, Option.bind_some, hc]
  have hedit : ∀ (edits : List RIexIn) (t : RIexSess), (rIexExec solve t (edits.map .edit)).shown = t.shown := by
    intro edits
    induction edits with
    | nil => intro t; rfl
    | cons e l ih => intro t; exact ih (rIexStep solve t (.edit e))
  show (rIexExec solve (rIexStep solve s .run) (edits.map .edit)).shown = some c
  rw [hedit, hrun]

theorem mass_out {ou : String} (ho : ou ∈ ["mg/L", "ug/L", "ng/L"]) :
    ∃ m, rMassIex.lookup ou = some m ∧ Spec.massUnits.lookup ou = some m ∧ m ≠ 0 := by
  simp only [List.mem_cons, List.not_mem_nil, or_false] at ho
  rcases ho with rfl | rfl | rfl
  · exact ⟨1, rfl, rfl, one_ne_zero⟩
  · exact ⟨1e-3, rfl, by show some ((1 : ℝ) / 1000) = some 1e-3; norm_num, by norm_num⟩
  · exact ⟨1e-6, rfl, by show some ((1 : ℝ) / 1000000) = some 1e-6; norm_num, by norm_num⟩

/-- C178. In the plots, values are converted with the ion sheet of the moment: right as long as molecular weights and valences stay. -/
theorem c178_drawn (s : RIexSess) (c : List (String × List ℝ)) (ou : String) (hs : s.shown = some c)
    (hl : c.length = s.ions.length) (ho : ou ∈ ["mg/L", "ug/L", "ng/L"]) : ∃ d, rIexDrawn s ou = some d ∧ Spec.SavedOutput ou (s.ions.map (·.toRIon)) c d := by
  obtain ⟨m, hm, hm', hm0⟩ := mass_out ho
  refine ⟨_, by unfold rIexDrawn; rw [hs, hm]; rfl, ?_⟩
  obtain ⟨h1, h2⟩ := outMgl_saved (ions := s.ions.map (·.toRIon)) (curves := c) (by simpa using hl)
  unfold Spec.SavedOutput
  refine ⟨?_, by simpa using h2⟩
  rw [List.zip_map_right, List.forall₂_map_right_iff]
  refine h1.imp fun i p hp => ?_
  obtain ⟨e1, m', e2, e3⟩ := hp
  have e2 : some (1 : ℝ) = some m' := e2
  obtain rfl := Option.some.inj e2
  refine ⟨e1, m, hm', ?_⟩
  show List.map (· * m) (List.map (· / m) p.2.2) = List.map _ p.1.2
  rw [← e3]
  simp only [List.map_map, mul_one, List.map_id']
  conv_rhs => rw [← List.map_id p.2.2]
  refine List.map_congr_left fun x _ => ?_
  simp only [Function.comp, id]
  field_simp

/-- A refused run puts the new names over the old curves. -/
theorem c178_relabel (solve : RIexIn → Except PyErr (List (List ℝ))) (s : RIexSess) (r : List (List ℝ)) (ho : s.out = some r)
    (hp : rIexPasses s.toRIexIn = false) (hl : r.length = s.ions.length) :
    ∃ c, (rIexStep solve s .run).shown = some c ∧ c.map (·.1) = s.ions.map (·.name) ∧ c.map (·.2) = r := by
  obtain ⟨c, hc, h1, h2⟩ := label_of_eq hl
  refine ⟨c, ?_, h1, h2⟩
  simp only [rIexStep, hp, Bool.false_eq_true, if_false, ho, Option.bind_some, hc]

/-- C178. A run is refused exactly when a cell is empty or the names of ions and influent differ. -/
theorem c178_checks (s : RIexIn) : rIexPasses s = true ↔ Spec.SameNames (s.ions.map (·.toRIon)) s.cols ∧ s.na = false := by
  unfold rIexPasses
  rw [Bool.and_eq_true, decide_eq_true_eq, nameErrors_zero, Bool.not_eq_true']

/-- C178. A refused run or one whose solver fails leaves the curves of the run before; only their names are made anew. -/
theorem c178_failed (solve : RIexIn → Except PyErr (List (List ℝ))) (s : RIexSess) (e : PyErr)
    (h : rIexPasses s.toRIexIn = false ∨ solve s.toRIexIn = .error e) :
    (rIexStep solve s .run).out = s.out ∧ (rIexStep solve s .run).toRIexIn = s.toRIexIn ∧
      (s.shown = s.out.bind (rIexLabel s.ions) → (rIexStep solve s .run).shown = s.shown) := by
  have ho : (rIexStep solve s .run).out = s.out := by
    simp only [rIexStep]
    rcases h with h | h
    · rw [h]; rfl
    · by_cases hp : rIexPasses s.toRIexIn = true
      · rw [if_pos hp, h]
      · rw [if_neg hp]
  refine ⟨ho, rfl, fun hs => ?_⟩
  show (rIexStep solve s .run).out.bind (rIexLabel s.ions) = s.shown
  rw [ho, hs]

/-- A session: a run with nitrate alone, then the ion is renamed to bromide, without its influent, and the button is pressed again. -/
noncomputable def c178Row (n : String) : RIonRow := ⟨⟨n, 62, 1, "meq"⟩, 1, "cm/s", 1, "cm2/s", 1, "cm2/s"⟩
noncomputable def c178Form : RIexForm := ⟨demoHyd, true, 1400, 0.35, 0.2, 0.03, "cm", 7, 13, "hr"⟩
noncomputable def c178In (n : String) : RIexIn := ⟨c178Form, [c178Row n], [0, 1], [("NITRATE", [1, 1])], false⟩
noncomputable def c178Solve (i : RIexIn) : Except PyErr (List (List ℝ)) :=
  if i.ions.map (·.name) = ["NITRATE"] then .ok [[7]] else .ok (i.ions.map fun _ => [0])

theorem c178_false : ¬ C178 := by
  intro H
  have h1 : rIexPasses (c178In "NITRATE") = true := by decide
  have h2 : rIexPasses (c178In "BROMIDE") = false := by decide
  have hs : c178Solve (c178In "NITRATE") = .ok [[7]] := if_pos rfl
  obtain ⟨i, r, e1, e2, e3⟩ := H c178Solve (by
    intro i r h
    unfold c178Solve at h
    by_cases hi : i.ions.map (·.name) = ["NITRATE"]
    · rw [if_pos hi] at h
      cases h
      simpa using (congrArg List.length hi).symm
    · rw [if_neg hi] at h
      cases h
      simp) (c178In "NITRATE") [.run, .edit (c178In "BROMIDE"), .run] [("BROMIDE", [7])] (by
      simp only [rIexExec, List.foldl_cons, List.foldl_nil, rIexStep, h1, h2, hs, if_true, Bool.false_eq_true, if_false,
        Option.bind_some]
      rfl)
  unfold c178Solve at e1
  rw [if_neg (by rw [← e2]; decide)] at e1
  cases e1
  simp only [List.map_cons, List.map_nil] at e3
  have hlen : i.ions.length = 1 := by simpa using (congrArg List.length e2).symm
  obtain ⟨a, ha⟩ := List.length_eq_one_iff.1 hlen
  rw [ha] at e3
  norm_num at e3

/-- The first run of that session meets the hypotheses of `c178_partial`. -/
example : rIexPasses (c178In "NITRATE") = true ∧ c178Solve (c178In "NITRATE") = .ok [[7]] := ⟨by decide, if_pos rfl⟩


/-! ### C179 and C180: measured points -/

/-- Milligrams per litre of one unit of the ion sheet. -/
noncomputable def Spec.mgl (i : RIon) : Option ℝ :=
  if i.concUnits = "meq" then some (Spec.mgPerMeq i) else Spec.massUnits.lookup i.concUnits

/-- The point of the measurement `x` of `n` at time `t`: in hours, under its name, in `ou`. -/
def Spec.PointOf (ions : List RIon) (tu ou sfx n : String) (t x : ℝ) (r : ℝ × String × ℝ) : Prop :=
  ∃ i ∈ ions, i.name = n ∧ ∃ s a b, Spec.timeUnits.lookup tu = some s ∧ Spec.mgl i = some a ∧ Spec.massUnits.lookup ou = some b ∧
    r.1 * Spec.hour = t * s ∧ r.2.1 = n ++ "_" ++ sfx ∧ r.2.2 * b = x * a

/-- The same relative to the first row of the influent of that name. -/
def Spec.RelPointOf (inf : List (String × List ℝ)) (tu sfx n : String) (t x : ℝ) (r : ℝ × String × ℝ) : Prop :=
  ∃ s v c0, Spec.timeUnits.lookup tu = some s ∧ (n, v) ∈ inf ∧ v.head? = some c0 ∧
    r.1 * Spec.hour = t * s ∧ r.2.1 = n ++ "_" ++ sfx ∧ r.2.2 = x / c0

/-- The points are those of the measurements of the table, no less and no more. -/
def Spec.PointsOf (P : String → ℝ → ℝ → ℝ × String × ℝ → Prop) (times : List ℝ) (cols : List (String × List ℝ))
    (rows : List (ℝ × String × ℝ)) : Prop :=
  (∀ c ∈ cols, ∀ (k : ℕ) (t x : ℝ), times[k]? = some t → c.2[k]? = some x → ∃ r ∈ rows, P c.1 t x r) ∧
  ∀ r ∈ rows, ∃ c ∈ cols, ∃ (k : ℕ) (t x : ℝ), times[k]? = some t ∧ c.2[k]? = some x ∧ P c.1 t x r

/-- A run's tables: ions as the manual wants them and an influent with their names, with a first row. -/
structure Spec.GoodRun (ions : List RIon) (inf : List (String × List ℝ)) : Prop where
  good : Spec.GoodIons ions
  inj : (inf.map (·.1)).Nodup
  same : Spec.SameNames ions inf
  untimed : "time" ∉ inf.map (·.1)
  first : ∀ c ∈ inf, c.2 ≠ []

/-- C179. Every measurement of the effluent is a point of the plot: under its ion, at its time, in the chosen units; or relative to the
first influent concentration of its ion. -/
def C179 : Prop := ∀ (ions : List RIon) (inf : List (String × List ℝ)) (times : List ℝ) (cols : List (String × List ℝ))
  (tu ou : String), Spec.GoodRun ions inf → (cols.map (·.1)).Nodup → (∀ c ∈ cols, c.1 ∈ ions.map (·.name)) → tu ∈ ["hr", "day"] →
  (ou ∈ ["mg/L", "ug/L", "ng/L"] → ∃ rows, rIexEff ions tu ou inf times cols = some rows ∧
    Spec.PointsOf (Spec.PointOf ions tu ou "effluent") times cols rows) ∧
  ∃ rows, rIexEff ions tu "c/c0" inf times cols = some rows ∧ Spec.PointsOf (Spec.RelPointOf inf tu "effluent") times cols rows

theorem lookup_nodup {β : Type} {l : List (String × β)} (h : (l.map (·.1)).Nodup) {c : String × β} (hc : c ∈ l) :
    l.lookup c.1 = some c.2 := by
  induction l with
  | nil => cases hc
  | cons a l ih =>
    rw [List.map_cons, List.nodup_cons] at h
    obtain ⟨n, v⟩ := a
    rcases List.mem_cons.1 hc with rfl | hc
    · exact List.lookup_cons_self
    · rw [List.lookup_cons]
      have : c.1 ≠ n := fun e => h.1 (List.mem_map.2 ⟨c, hc, e⟩)
      rw [beq_false_of_ne this]
      exact ih h.2 hc

/-- Conversion column by column, for any factor of an ion. -/
theorem convert_eq (g : RIon → Option ℝ) (ions : List RIon) (cols : List (String × List ℝ)) (hi : (ions.map (·.name)).Nodup)
    (hc : (cols.map (·.1)).Nodup) (hg : ∀ i ∈ ions, ∃ m, g i = some m) (hn : ∀ i ∈ ions, i.name ∈ cols.map (·.1)) :
    ions.foldlM (fun corr i => do
      let m ← g i
      let v ← cols.lookup i.name
      some (corr.map fun c => if c.1 = i.name then (c.1, v.map (· * m)) else c)) cols =
    some (cols.map fun c => match ions.find? (fun i => i.name = c.1) with
      | some i => (c.1, c.2.map (· * (g i).getD 0))
      | none => c) := by
  induction ions using List.reverseRecOn with
  | nil => simp
  | append_singleton ions j ih =>
    have hi' : (ions.map (·.name)).Nodup := by rw [List.map_append] at hi; exact hi.of_append_left
    have hj : j.name ∉ ions.map (·.name) := by
      rw [List.map_append, List.nodup_append] at hi
      intro hm
      exact hi.2.2 _ hm _ (by simp) rfl
    rw [List.foldlM_append, ih hi' (fun i h => hg i (List.mem_append_left _ h)) (fun i h => hn i (List.mem_append_left _ h))]
    obtain ⟨m, hm⟩ := hg j (by simp)
    obtain ⟨d, hd, hdn⟩ := List.mem_map.1 (hn j (by simp))
    have hv : cols.lookup j.name = some d.2 := hdn ▸ lookup_nodup hc hd
    simp only [Option.bind_eq_bind, Option.bind_some, List.foldlM_cons, List.foldlM_nil, hm, hv, pure, List.map_map]
    congr 1
    refine List.map_congr_left fun c hcm => ?_
    simp only [Function.comp, List.find?_append]
    by_cases hcj : c.1 = j.name
    · have hnone : ions.find? (fun i => decide (i.name = c.1)) = none := by
        rw [List.find?_eq_none]
        intro i hi e
        exact hj (List.mem_map.2 ⟨i, hi, (of_decide_eq_true e).trans hcj⟩)
      have hcd : c = d := List.inj_on_of_nodup_map hc hcm hd (hcj.trans hdn.symm)
      rw [hnone]
      simp only [Option.none_or, List.find?_cons, ← hcj, decide_true, if_true]
      rw [← hcd, hm]
      rfl
    · have hjc : ¬ j.name = c.1 := fun e => hcj e.symm
      rcases hf : ions.find? (fun i => decide (i.name = c.1)) with _ | i
      · simp [hf, hcj, hjc]
      · simp [hf, hcj]

theorem find_name {ions : List RIon} {n : String} (h : n ∈ ions.map (·.name)) :
    ∃ i ∈ ions, i.name = n ∧ ions.find? (fun i => decide (i.name = n)) = some i := by
  cases hf : ions.find? (fun i => decide (i.name = n)) with
  | none =>
    rw [List.find?_eq_none] at hf
    obtain ⟨i, hi, e⟩ := List.mem_map.1 h
    exact absurd (decide_eq_true e) (hf i hi)
  | some i => exact ⟨i, List.mem_of_find?_eq_some hf, by simpa using List.find?_some hf, rfl⟩

theorem mem_gather {times : List ℝ} {cols : List (String × List ℝ)} {r : ℝ × String × ℝ} :
    r ∈ rGatherCols times cols ↔ ∃ c ∈ cols, ∃ (k : ℕ) (t x : ℝ), times[k]? = some t ∧ c.2[k]? = some x ∧ r = (t, c.1, x) := by
  unfold rGatherCols
  rw [List.mem_flatMap]
  refine exists_congr fun c => and_congr_right fun _ => ?_
  rw [List.mem_iff_getElem?]
  refine exists_congr fun k => ?_
  rw [List.getElem?_zipWith_eq_some]
  constructor
  · rintro ⟨t, x, h1, h2, e⟩; exact ⟨t, x, h1, h2, e.symm⟩
  · rintro ⟨t, x, h1, h2, e⟩; exact ⟨t, x, h1, h2, e.symm⟩

theorem mglMult_eq (i : RIon) (h : i.concUnits ∈ concMenu) : ∃ m, rMglMult i = some m ∧ Spec.mgl i = some m := by
  unfold rMglMult Spec.mgl Spec.mgPerMeq
  simp only [concMenu, List.mem_cons, List.not_mem_nil, or_false] at h
  rcases h with h | h | h | h <;> rw [h]
  · exact ⟨_, if_pos (Or.inl rfl), if_pos rfl⟩
  · exact ⟨1, by rw [if_neg (by decide)]; rfl, by rw [if_neg (by decide)]; rfl⟩
  · refine ⟨1e-3, by rw [if_neg (by decide)]; rfl, ?_⟩
    rw [if_neg (by decide)]
    show some ((1 : ℝ) / 1000) = some 1e-3
    norm_num
  · refine ⟨1e-6, by rw [if_neg (by decide)]; rfl, ?_⟩
    rw [if_neg (by decide)]
    show some ((1 : ℝ) / 1000000) = some 1e-6
    norm_num

theorem hours_eq {tu : String} (h : tu ∈ ["hr", "day"]) (t : ℝ) :
    ∃ s, Spec.timeUnits.lookup tu = some s ∧ rTableHours tu t * Spec.hour = t * s := by
  simp only [List.mem_cons, List.not_mem_nil, or_false] at h
  rcases h with rfl | rfl
  · exact ⟨_, rfl, by unfold rTableHours; rw [if_pos rfl]⟩
  · refine ⟨_, rfl, ?_⟩
    unfold rTableHours Spec.day
    rw [if_neg (by decide)]
    ring

/-- Points of a table that has all ions, and nothing else. -/
theorem points_ok {ions : List RIon} (hi : Spec.GoodIons ions) {cols : List (String × List ℝ)} (hc : (cols.map (·.1)).Nodup)
    (ha : ∀ i ∈ ions, i.name ∈ cols.map (·.1)) (hb : ∀ c ∈ cols, c.1 ∈ ions.map (·.name)) {tu ou : String} (ht : tu ∈ ["hr", "day"])
    (ho : ou ∈ ["mg/L", "ug/L", "ng/L"]) (sfx : String) (times : List ℝ) :
    ∃ rows, rIexPoints ions tu ou sfx times cols = some rows ∧ Spec.PointsOf (Spec.PointOf ions tu ou sfx) times cols rows := by
  obtain ⟨m, hm, hm', hm0⟩ := mass_out ho
  have hconv := convert_eq rMglMult ions cols hi.1 hc
    (fun i h => ⟨_, (mglMult_eq i (hi.2.1 i h)).choose_spec.1⟩) ha
  have hpt : ∀ c ∈ cols, ∀ t x r, (∃ i ∈ ions, i.name = c.1 ∧ ∃ a, rMglMult i = some a ∧
      r = (rTableHours tu t, c.1 ++ "_" ++ sfx, x * a / m)) → Spec.PointOf ions tu ou sfx c.1 t x r := by
    rintro c hcm t x r ⟨i, him, hin, a, ha, rfl⟩
    obtain ⟨a', ha1, ha2⟩ := mglMult_eq i (hi.2.1 i him)
    obtain rfl : a = a' := Option.some.inj (ha.symm.trans ha1)
    obtain ⟨s, hs, e⟩ := hours_eq ht t
    exact ⟨i, him, hin, s, a, m, hs, ha2, hm', e, rfl, by field_simp⟩
  refine ⟨_, by unfold rIexPoints rMglConvert; rw [hconv, hm]; rfl, ?_, ?_⟩
  · intro c hcm k t x hk hx
    obtain ⟨i, him, hin, hf⟩ := find_name (hb c hcm)
    obtain ⟨a, ha1, -⟩ := mglMult_eq i (hi.2.1 i him)
    refine ⟨(rTableHours tu t, c.1 ++ "_" ++ sfx, x * a / m), ?_, hpt c hcm t x _ ⟨i, him, hin, a, ha1, rfl⟩⟩
    refine List.mem_map.2 ⟨(rTableHours tu t, c.1 ++ "_" ++ sfx, x * a), mem_gather.2 ?_, rfl⟩
    refine ⟨(c.1 ++ "_" ++ sfx, c.2.map (· * a)), ?_, k, _, x * a, by rw [List.getElem?_map, hk]; rfl,
      by rw [List.getElem?_map, hx]; rfl, rfl⟩
    unfold rSuffix
    refine List.mem_map.2 ⟨(c.1, c.2.map (· * a)), List.mem_map.2 ⟨c, hcm, ?_⟩, rfl⟩
    simp only [hf, ha1, Option.getD_some]
  · intro r hr
    obtain ⟨r', hr', rfl⟩ := List.mem_map.1 hr
    obtain ⟨d, hd, k, t', y, hk, hy, rfl⟩ := mem_gather.1 hr'
    unfold rSuffix at hd
    rw [List.map_map] at hd
    obtain ⟨c, hcm, rfl⟩ := List.mem_map.1 hd
    obtain ⟨i, him, hin, hf⟩ := find_name (hb c hcm)
    obtain ⟨a, ha1, -⟩ := mglMult_eq i (hi.2.1 i him)
    simp only [Function.comp, hf, ha1, Option.getD_some, List.getElem?_map, Option.map_eq_some_iff] at hk hy
    obtain ⟨t, hk, rfl⟩ := hk
    obtain ⟨x, hx, rfl⟩ := hy
    refine ⟨c, hcm, k, t, x, hk, hx, hpt c hcm t x _ ⟨i, him, hin, a, ha1, ?_⟩⟩
    simp only [Function.comp, hf]

theorem cc0_meq (i : RIon) (hu : i.concUnits ∈ concMenu) (hmv : i.mw ≠ 0 ∧ i.valence ≠ 0) :
    ∃ a, rMeqMult i = some a ∧ rCc0Mult i = some a ∧ a ≠ 0 := by
  obtain ⟨a, b, h1, h2, h3, h4, e⟩ := c145_back i hu hmv.1 hmv.2
  refine ⟨a, h1, h4, ?_⟩
  rintro rfl
  rw [zero_mul] at e
  subst e
  obtain ⟨m, hm, hs⟩ := mglMult_eq i hu
  obtain rfl : m = 0 := Option.some.inj (hm.symm.trans h3)
  unfold Spec.mgl Spec.mgPerMeq at hs
  simp only [concMenu, List.mem_cons, List.not_mem_nil, or_false] at hu
  rcases hu with h | h | h | h <;> rw [h] at hs
  · rw [if_pos rfl] at hs
    exact absurd (Option.some.inj hs) (div_ne_zero hmv.1 hmv.2)
  · rw [if_neg (by decide)] at hs
    have hs : some (1 : ℝ) = some 0 := hs
    norm_num at hs
  · rw [if_neg (by decide)] at hs
    have hs : some ((1 : ℝ) / 1000) = some 0 := hs
    norm_num at hs
  · rw [if_neg (by decide)] at hs
    have hs : some ((1 : ℝ) / 1000000) = some 0 := hs
    norm_num at hs

theorem getElem?_names {α β : Type} {l : List (String × α)} {l' : List (String × β)} (h : l.map (·.1) = l'.map (·.1)) {k : ℕ} {a : String × α}
    (ha : l[k]? = some a) : ∃ b, l'[k]? = some (a.1, b) := by
  have h1 : (l.map (·.1))[k]? = some a.1 := by rw [List.getElem?_map, ha]; rfl
  rw [h, List.getElem?_map, Option.map_eq_some_iff] at h1
  obtain ⟨⟨n, b⟩, hb, e⟩ := h1
  exact ⟨b, by rw [hb]; simp at e; rw [e]⟩

/-- Relative points of a table with the columns of the influent in the same order. -/
theorem cc0_ok {ions : List RIon} {inf : List (String × List ℝ)} (h : Spec.GoodRun ions inf) {cols : List (String × List ℝ)}
    (hsame : cols.map (·.1) = inf.map (·.1)) {tu : String} (ht : tu ∈ ["hr", "day"]) (sfx : String) (times : List ℝ) :
    ∃ rows, rIexPointsCc0 ions tu sfx inf times cols = some rows ∧ Spec.PointsOf (Spec.RelPointOf inf tu sfx) times cols rows := by
  obtain ⟨hi, hinj, hs, hut, hfirst⟩ := h
  have hc : (cols.map (·.1)).Nodup := hsame ▸ hinj
  have ha : ∀ i ∈ ions, i.name ∈ cols.map (·.1) := fun i h => hsame ▸ hs.1 i h
  have hbi : ∀ c ∈ inf, c.1 ∈ ions.map (·.name) := fun c h => hs.2 c h fun e => hut (List.mem_map.2 ⟨c, h, e⟩)
  have hb : ∀ n ∈ inf.map (·.1), n ∈ ions.map (·.name) := by
    intro n hn
    obtain ⟨c, hcm, rfl⟩ := List.mem_map.1 hn
    exact hbi c hcm
  have hmgl := convert_eq rMglMult ions cols hi.1 hc
    (fun i h => ⟨_, (mglMult_eq i (hi.2.1 i h)).choose_spec.1⟩) ha
  have hmeq := convert_eq rMeqMult ions cols hi.1 hc
    (fun i h => ⟨_, (cc0_meq i (hi.2.1 i h) (hi.2.2 i h)).choose_spec.1⟩) ha
  let mOf : String → ℝ := fun n => match ions.find? (fun i => decide (i.name = n)) with
    | some i => (rMeqMult i).getD 0
    | none => 0
  have hm0 : ∀ n ∈ inf.map (·.1), mOf n ≠ 0 := by
    intro n hn
    obtain ⟨i, him, hin, hf⟩ := find_name (hb n hn)
    obtain ⟨a, h1, -, h3⟩ := cc0_meq i (hi.2.1 i him) (hi.2.2 i him)
    simp only [mOf, hf, h1, Option.getD_some]
    exact h3
  have hmeq' : rCinCorrect ions cols = some (cols.map fun c => (c.1, c.2.map (· * mOf c.1))) := by
    unfold rCinCorrect
    rw [hmeq]
    congr 1
    refine List.map_congr_left fun c hcm => ?_
    obtain ⟨i, him, hin, hf⟩ := find_name (hb c.1 (hsame ▸ List.mem_map.2 ⟨c, hcm, rfl⟩))
    simp only [mOf, hf]
  have hc0 : rC0 ions inf = some (inf.map fun c => c.2.headD 0 * mOf c.1) := by
    unfold rC0
    rw [if_pos (nameErrors_zero.2 hs)]
    refine mapM_of_some fun c hcm => ?_
    obtain ⟨i, him, hin, hf⟩ := find_name (hbi c hcm)
    obtain ⟨a, h1, h2, -⟩ := cc0_meq i (hi.2.1 i him) (hi.2.2 i him)
    have := hfirst c hcm
    cases hv : c.2 with
    | nil => exact absurd hv this
    | cons x l => simp [hf, h1, h2, mOf]
  have hlen : cols.length = inf.length := by simpa using congrArg List.length hsame
  have hpt : ∀ (k : ℕ) (c : String) (v : List ℝ) (t x : ℝ), inf[k]? = some (c, v) → Spec.RelPointOf inf tu sfx c t x
      (rTableHours tu t, c ++ "_" ++ sfx, x * mOf c / (v.headD 0 * mOf c)) := by
    intro k c v t x hk
    have hmem : (c, v) ∈ inf := List.mem_of_getElem? hk
    obtain ⟨s, h1, e⟩ := hours_eq ht t
    have := hfirst _ hmem
    cases v with
    | nil => exact absurd rfl this
    | cons y l =>
      exact ⟨s, y :: l, y, h1, hmem, rfl, e, rfl, mul_div_mul_right _ _ (hm0 _ (List.mem_map.2 ⟨_, hmem, rfl⟩))⟩
  refine ⟨_, by
    unfold rIexPointsCc0 rMglConvert
    rw [hmgl, hmeq', hc0]
    simp only [Option.bind_eq_bind, Option.bind_some]
    rw [if_pos (by simp [hlen])], ?_, ?_⟩
  · intro c hcm k t x hk hx
    obtain ⟨j, hj⟩ := List.mem_iff_getElem?.1 hcm
    obtain ⟨v, hv⟩ := getElem?_names hsame hj
    refine ⟨_, mem_gather.2 ⟨(c.1 ++ "_" ++ sfx, (c.2.map (· * mOf c.1)).map (· / (v.headD 0 * mOf c.1))), ?_, k, _,
      x * mOf c.1 / (v.headD 0 * mOf c.1), by rw [List.getElem?_map, hk]; rfl, by simp [hx], rfl⟩, hpt j c.1 v t x hv⟩
    rw [List.mem_iff_getElem?]
    refine ⟨j, ?_⟩
    rw [List.getElem?_zipWith_eq_some]
    exact ⟨_, _, by unfold rSuffix; rw [List.getElem?_map, List.getElem?_map, hj]; rfl, by rw [List.getElem?_map, hv]; rfl, rfl⟩
  · intro r hr
    obtain ⟨d, hd, k, t', y, hk, hy, rfl⟩ := mem_gather.1 hr
    obtain ⟨j, hj⟩ := List.mem_iff_getElem?.1 hd
    rw [List.getElem?_zipWith_eq_some] at hj
    obtain ⟨a, z, hja, hjz, rfl⟩ := hj
    unfold rSuffix at hja
    rw [List.map_map, List.getElem?_map, Option.map_eq_some_iff] at hja
    obtain ⟨c, hcj, rfl⟩ := hja
    obtain ⟨v, hv⟩ := getElem?_names hsame hcj
    rw [List.getElem?_map, hv] at hjz
    obtain rfl := Option.some.inj hjz
    simp only [Function.comp, List.getElem?_map, Option.map_eq_some_iff] at hk hy
    obtain ⟨t, hk, rfl⟩ := hk
    obtain ⟨_, ⟨x, hx, rfl⟩, rfl⟩ := hy
    exact ⟨c, List.mem_of_getElem? hcj, k, t, x, hk, hx, hpt j c.1 v t x hv⟩

/-- C179, as far as it holds: the effluent table has more than one row and every ion, and, for relative concentrations, the columns in the
order of the influent. Missing: tables without some of the ions, with the columns in another order, with a single row. -/
theorem c179_partial (ions : List RIon) (inf : List (String × List ℝ)) (times : List ℝ) (cols : List (String × List ℝ))
    (tu : String) (h : Spec.GoodRun ions inf) (hr : 1 < times.length) (ht : tu ∈ ["hr", "day"]) :
    (∀ ou ∈ ["mg/L", "ug/L", "ng/L"], (cols.map (·.1)).Nodup → (∀ c ∈ cols, c.1 ∈ ions.map (·.name)) →
      (∀ i ∈ ions, i.name ∈ cols.map (·.1)) → ∃ rows, rIexEff ions tu ou inf times cols = some rows ∧
        Spec.PointsOf (Spec.PointOf ions tu ou "effluent") times cols rows) ∧
    (cols.map (·.1) = inf.map (·.1) → ∃ rows, rIexEff ions tu "c/c0" inf times cols = some rows ∧
      Spec.PointsOf (Spec.RelPointOf inf tu "effluent") times cols rows) := by
  unfold rIexEff
  rw [if_pos hr, if_pos rfl]
  refine ⟨fun ou ho hc hb ha => ?_, fun hs => cc0_ok h hs ht _ _⟩
  rw [if_pos hr, if_neg]
  · exact points_ok h.good hc ha hb ht ho _ _
  · rintro rfl
    simp at ho

/-- An effluent table without one of the ions is an error. -/
theorem c179_missing (ions : List RIon) (inf : List (String × List ℝ)) (times : List ℝ) (cols : List (String × List ℝ)) (tu ou : String)
    (hr : 1 < times.length) (i : RIon) (hi : i ∈ ions) (hn : i.name ∉ cols.map (·.1)) : rIexEff ions tu ou inf times cols = none := by
  have hl : cols.lookup i.name = none := by
    rw [List.lookup_eq_none_iff]
    intro c hc
    exact bne_iff_ne.2 fun e => hn (List.mem_map.2 ⟨c, hc, e.symm⟩)
  have hfold : ∀ (l : List RIon) (c0 : List (String × List ℝ)), i ∈ l →
      l.foldlM (fun corr i => do
        let m ← rMglMult i
        let v ← cols.lookup i.name
        some (corr.map fun c => if c.1 = i.name then (c.1, v.map (· * m)) else c)) c0 = none := by
    intro l
    induction l with
    | nil => intro _ h; cases h
    | cons a l ih =>
      intro c0 h
      rw [List.foldlM_cons]
      rcases List.mem_cons.1 h with rfl | h
      · cases rMglMult i <;> simp [hl]
      · cases rMglMult a with
        | none => rfl
        | some m =>
          cases cols.lookup a.name with
          | none => rfl
          | some v =>
            simp only [Option.bind_eq_bind, Option.bind_some]
            exact ih _ h
  have hm : rMglConvert ions cols = none := hfold ions cols hi
  unfold rIexEff rIexPointsCc0 rIexPoints
  rw [if_pos hr, hm]
  by_cases ho : ou = "c/c0"
  · rw [if_pos ho]; rfl
  · rw [if_neg ho]; rfl

/-- With such a table the plot is empty as soon as one of the boxes is ticked: computed curves and influent are gone, too. -/
theorem c179_blank {α : Type} (curves : α) (b : Bool) (inf : Option (List (ℝ × String × ℝ))) :
    rIexPlot true b curves none inf = none ∧ rIexPlot b true curves none inf = none ∧
      rIexPlot false false curves none inf = some (curves, [], []) := by
  refine ⟨rfl, ?_, rfl⟩
  cases b <;> rfl

/-- When nothing fails the plot has what the ticked boxes ask for. -/
theorem c179_shown {α : Type} (curves : α) (a b : Bool) (e i : List (ℝ × String × ℝ)) :
    rIexPlot a b curves (some e) (some i) = some (curves, if a then e else [], if b then i else []) := by
  cases a <;> cases b <;> rfl

/-- A single measurement is not drawn. -/
theorem c179_single (ions : List RIon) (inf : List (String × List ℝ)) (t : ℝ) (cols : List (String × List ℝ)) (tu ou : String) :
    rIexEff ions tu ou inf [t] cols = some [] := by
  unfold rIexEff
  rw [if_neg (by simp)]

theorem swap_good : Spec.GoodRun swapIons swapCols := by
  refine ⟨⟨?_, ?_, ?_⟩, ?_, ?_, ?_, ?_⟩
  · simp [swapIons]
  · intro i hi
    simp only [swapIons, List.mem_cons, List.not_mem_nil, or_false] at hi
    rcases hi with rfl | rfl <;> simp [concMenu]
  · intro i hi
    simp only [swapIons, List.mem_cons, List.not_mem_nil, or_false] at hi
    rcases hi with rfl | rfl <;> norm_num
  · simp [swapCols]
  · simp [Spec.SameNames, swapIons, swapCols]
  · simp [swapCols]
  · simp [swapCols]

/-- Chloride and nitrate in the influent, chloride alone in the effluent. -/
theorem c179_false : ¬ C179 := by
  intro H
  obtain ⟨h1, -⟩ := H swapIons swapCols [0, 1] [("CHLORIDE", [5, 5])] "hr" "mg/L" swap_good (by simp) (by simp [swapIons]) (by simp)
  obtain ⟨rows, h, -⟩ := h1 (by simp)
  rw [c179_missing swapIons swapCols [0, 1] [("CHLORIDE", [5, 5])] "hr" "mg/L" (by simp) ⟨"NITRATE", 62, 1, "meq"⟩
    (by simp [swapIons]) (by simp)] at h
  cases h

/-- The columns of the effluent in another order than those of the influent: chloride is drawn over the nitrate of the influent. -/
theorem c179_order : ∃ rows, rIexEff swapIons "hr" "c/c0" swapCols [0, 1] [("CHLORIDE", [5, 5]), ("NITRATE", [1, 1])] = some rows ∧
    (0, "CHLORIDE_effluent", 5) ∈ rows ∧ ¬ Spec.RelPointOf swapCols "hr" "effluent" "CHLORIDE" 0 5 (0, "CHLORIDE_effluent", 5) := by
  refine ⟨[(0, "CHLORIDE_effluent", 5 * 1 / (1 * 1)), (1, "CHLORIDE_effluent", 5 * 1 / (1 * 1)),
    (0, "NITRATE_effluent", 1 * 1 / (5 * 1)), (1, "NITRATE_effluent", 1 * 1 / (5 * 1))], ?_, ?_, ?_⟩
  · rfl
  · norm_num
  · rintro ⟨s, v, c0, -, hv, hc, -, -, e⟩
    simp only [swapCols, List.mem_cons, Prod.mk.injEq, List.not_mem_nil, or_false] at hv
    rcases hv with ⟨h, -⟩ | ⟨-, rfl⟩
    · exact absurd h (by decide)
    · have hc : some (5 : ℝ) = some c0 := hc
      obtain rfl := Option.some.inj hc
      norm_num at e

/-- Tables that meet the hypotheses of `c179_partial`. -/
example : Spec.GoodRun swapIons swapCols ∧ (swapCols.map (·.1)).Nodup ∧ (∀ i ∈ swapIons, i.name ∈ swapCols.map (·.1)) :=
  ⟨swap_good, swap_good.inj, swap_good.same.1⟩

/-- C180. The influent is drawn point by point in the chosen units, and relative to the first row of each ion. -/
theorem c180_influent (ions : List RIon) (inf : List (String × List ℝ)) (times : List ℝ) (tu : String) (h : Spec.GoodRun ions inf)
    (ht : tu ∈ ["hr", "day"]) :
    (∀ ou ∈ ["mg/L", "ug/L", "ng/L"], ∃ rows, rIexInf ions tu ou times inf = some rows ∧
      Spec.PointsOf (Spec.PointOf ions tu ou "influent") times inf rows) ∧
    ∃ rows, rIexInf ions tu "c/c0" times inf = some rows ∧ Spec.PointsOf (Spec.RelPointOf inf tu "influent") times inf rows := by
  unfold rIexInf
  rw [if_pos rfl]
  refine ⟨fun ou ho => ?_, cc0_ok h rfl ht _ _⟩
  rw [if_neg]
  · exact points_ok h.good h.inj h.same.1 (fun c hc => h.same.2 c hc fun e => h.untimed (List.mem_map.2 ⟨c, hc, e⟩)) ht ho _ _
  · rintro rfl
    simp at ho

/-- C180. Relative concentrations of the influent start at one. -/
theorem c180_one (inf : List (String × List ℝ)) (hd : (inf.map (·.1)).Nodup) (tu sfx n : String) (t x : ℝ) (v : List ℝ)
    (r : ℝ × String × ℝ) (hv : (n, v) ∈ inf) (hx : v.head? = some x) (hx0 : x ≠ 0) (h : Spec.RelPointOf inf tu sfx n t x r) : r.2.2 = 1 := by
  obtain ⟨s, v', c0, -, hv', hc, -, -, e⟩ := h
  have := List.inj_on_of_nodup_map hd hv hv' rfl
  obtain rfl : v = v' := (Prod.mk.inj this).2
  obtain rfl : x = c0 := Option.some.inj (hx.symm.trans hc)
  rw [e, div_self hx0]

/-! ### C181: arguments of a run -/

/-- C181. The solvers get length, radius and velocity in cm and cm/s and the unit of time in seconds, and the other numbers of the form as
they are; the porosity of the beads is handed over for macroporous resins only. -/
theorem c181_params (f : RIexForm) (hm : f.toRHyd.Menu) (hr : f.rbu ∈ lengthMenu) (ht : f.tunits ∈ ["hr", "day"]) :
    ∃ p s l r t, rIexParams f = some p ∧ Spec.speed f.toRHyd = some s ∧ Spec.lengthUnits.lookup f.lu = some l ∧
      Spec.lengthUnits.lookup f.rbu = some r ∧ Spec.timeUnits.lookup f.tunits = some t ∧
      |p.v / 100 - s| ≤ 1e-11 * |s| ∧ p.L / 100 = f.Lv * l ∧ p.rb / 100 = f.rbv * r ∧ p.tconv = t ∧
      (p.Q, p.ebed, p.nr, p.nz) = (f.Q, f.ebed, f.nr, f.nz) ∧ p.epor = if f.psdm then some f.epor else none := by
  obtain ⟨v, s, hv, hs, e⟩ := c139_speed f.toRHyd hm
  obtain ⟨l, l', hl, hl', -, el⟩ := length_converts _ hm.2.2.2
  obtain ⟨r, r', hr1, hr', -, er⟩ := length_converts _ hr
  obtain ⟨t, t', ht1, ht', -, et⟩ := c139_units.2.2.2.2.2.2.1 f.tunits (by
    simp only [List.mem_cons, List.not_mem_nil, or_false] at ht ⊢; tauto)
  refine ⟨_, s, l', r', t', by unfold rIexParams; rw [hv, hl, hr1, ht1]; rfl, hs, hl', hr', ht', e, ?_, ?_, ?_, rfl, rfl⟩
  · rw [exact_of el]; ring
  · rw [exact_of er]; ring
  · rw [exact_of et]; simp

/-- C181. Transport coefficients in cm/s and cm²/s. -/
theorem c181_transport (psdm : Bool) (i : RIonRow) (hk : i.kLu ∈ ["ft/s", "m/s", "cm/s", "in/s", "m/min", "ft/min", "m/h", "m/hr"])
    (hd : i.Dsu ∈ ["ft^2/s", "m^2/s", "cm^2/s", "in^2/s"]) (hp : i.Dpu ∈ ["ft^2/s", "m^2/s", "cm^2/s", "in^2/s"]) :
    ∃ k d q a b c, rIonTransport psdm i = some (k, d, q) ∧ Spec.velocityUnits.lookup i.kLu = some a ∧
      Spec.diffusionUnits.lookup i.Dsu = some b ∧ Spec.diffusionUnits.lookup i.Dpu = some c ∧ k / 100 = i.kL * a ∧
      d / 100 ^ 2 = i.Ds * b ∧ q.map (· / 100 ^ 2) = if psdm then some (i.Dp * c) else none := by
  obtain ⟨k, a, hk1, hk2, -, ek⟩ := c139_units.2.2.2.2.1 _ hk
  obtain ⟨d, b, hd1, hd2, -, ed⟩ := c139_units.2.2.2.2.2.1 _ hd
  obtain ⟨p, c, hp1, hp2, -, ep⟩ := c139_units.2.2.2.2.2.1 _ hp
  unfold rIonTransport
  rw [hk1, hd1, hp1]
  cases psdm
  · refine ⟨_, _, _, a, b, c, rfl, hk2, hd2, hp2, ?_, ?_, rfl⟩
    · rw [exact_of ek]; ring
    · rw [exact_of ed]; ring
  · refine ⟨_, _, _, a, b, c, rfl, hk2, hd2, hp2, ?_, ?_, ?_⟩
    · rw [exact_of ek]; ring
    · rw [exact_of ed]; ring
    · simp only [Option.map_some, if_true]
      rw [exact_of ep]
      congr 1
      ring

example : c178Form.toRHyd.Menu ∧ c178Form.rbu ∈ lengthMenu ∧ c178Form.tunits ∈ ["hr", "day"] := by
  simp [c178Form, demoHyd, RHyd.Menu, velocityMenu, flowMenu, lengthMenu]

/-! ### C182: uploads -/

/-- The files after a start and uploads. -/
def iexUploads {T : Type} (noEff : T) (start : RIexFiles T) (ups : List (RIexBook T)) : RIexFiles T := ups.foldl (rIexRead noEff) start

/-- C182. After an upload each table is that of the workbook, and the default when the workbook does not have it. -/
def C182 : Prop := ∀ (T : Type) (noEff : T) (start : RIexFiles T) (ups : List (RIexBook T)) (b : RIexBook T),
  let f := iexUploads noEff start (ups ++ [b])
  f.params = b.params.getD start.params ∧ f.ions = b.ions.getD start.ions ∧ f.cin = b.cin.getD start.cin ∧ f.eff = b.eff.getD noEff

theorem iexUploads_snoc {T : Type} (noEff : T) (start : RIexFiles T) (ups : List (RIexBook T)) (b : RIexBook T) :
    iexUploads noEff start (ups ++ [b]) = rIexRead noEff (iexUploads noEff start ups) b := by
  unfold iexUploads
  rw [List.foldl_append]
  rfl

/-- C182, as far as it holds: what the workbook has is taken, and no effluent stays from an earlier workbook. Missing: parameters, ions and
influent that the workbook does not have stay those of the upload before. -/
theorem c182_partial {T : Type} (noEff : T) (start : RIexFiles T) (ups : List (RIexBook T)) (b : RIexBook T) :
    let f := iexUploads noEff start (ups ++ [b])
    (∀ x, b.params = some x → f.params = x) ∧ (∀ x, b.ions = some x → f.ions = x) ∧ (∀ x, b.cin = some x → f.cin = x) ∧
      f.eff = b.eff.getD noEff := by
  intro f
  have hf : f = rIexRead noEff (iexUploads noEff start ups) b := iexUploads_snoc ..
  rw [hf]
  refine ⟨fun x h => ?_, fun x h => ?_, fun x h => ?_, rfl⟩ <;> simp [rIexRead, h]

theorem iexUploads_last {T β : Type} (noEff : T) {get : RIexFiles T → β} {sheet : RIexBook T → Option β}
    (hg : ∀ f b, get (rIexRead noEff f b) = (sheet b).getD (get f)) (start : RIexFiles T) (ups : List (RIexBook T)) :
    get (iexUploads noEff start ups) = ((ups.reverse.filterMap sheet).head?).getD (get start) := by
  induction ups using List.reverseRecOn with
  | nil => rfl
  | append_singleton ups b ih =>
    rw [iexUploads_snoc, hg, ih, List.reverse_append]
    simp only [List.reverse_cons, List.reverse_nil, List.nil_append, List.singleton_append, List.filterMap_cons]
    cases sheet b <;> rfl

/-- C182. After any uploads parameters, ions and influent are those of the last workbook that had them, each on its own. -/
theorem c182_latest {T : Type} (noEff : T) (start : RIexFiles T) (ups : List (RIexBook T)) :
    let f := iexUploads noEff start ups
    f.params = ((ups.reverse.filterMap (·.params)).head?).getD start.params ∧
    f.ions = ((ups.reverse.filterMap (·.ions)).head?).getD start.ions ∧
    f.cin = ((ups.reverse.filterMap (·.cin)).head?).getD start.cin :=
  ⟨iexUploads_last noEff (get := (·.params)) (fun _ _ => rfl) .., iexUploads_last noEff (get := (·.ions)) (fun _ _ => rfl) ..,
    iexUploads_last noEff (get := (·.cin)) (fun _ _ => rfl) ..⟩

/-- C182. An upload takes results of earlier runs from the screen. -/
theorem c182_screen (solve : RIexIn → Except PyErr (List (List ℝ))) (s : RIexSess) (i : RIexIn) :
    (rIexStep solve s (.upload i)).toRIexIn = i ∧ (rIexStep solve s (.upload i)).out = none ∧
      (rIexStep solve s (.upload i)).shown = none := ⟨rfl, rfl, rfl⟩

theorem c182_false : ¬ C182 := by
  intro H
  have h := (H ℕ 0 ⟨[], 0, 0, 0⟩ [⟨none, some 1, none, none⟩] ⟨none, none, none, none⟩).2.1
  simp [iexUploads, rIexRead] at h

end WTM
