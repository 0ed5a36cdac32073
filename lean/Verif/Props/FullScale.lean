import Mathlib.Tactic
import Verif.Props.GacRunAll
import Verif.Model.FullScale

/-! C196-C197: the full-scale prediction from the `K` and `1/n` of a column object. -/
set_option autoImplicit false
namespace WTM
noncomputable section

variable {S : Sim} {o o' : GacObj} {c : String} {daily : (ℝ → ℝ) → ℕ → ℝ} {shared : Bool} {filter : List String}
  {total per maxDays : ℕ} {target : ℝ}

/-! ### C196 -/

/-- The curve of one compound on its own, with its `K` and `1/n` in the table; a compound without data is a
`KeyError`. -/
def Spec.aloneRun (S : Sim) (o : GacObj) (c : String) : Except PyErr (ℝ → ℝ) :=
  if o.bup.data.eff c = none then .error .keyError
  else (Spec.trialCurve S o c (o.core.kData c).K (o.core.kData c).xn).map fun r => r c

theorem single_core (o : GacObj) (c : String) :
    Spec.trialCurve S o c (o.core.kData c).K (o.core.kData c).xn = (S (toSingle o c).core o.der).1 := by
  unfold Spec.trialCurve toSingle GacData.only
  congr 2
  simp only
  congr 1
  funext c'
  by_cases h : c' = c
  · rw [if_pos h, h]
  · rw [if_neg h]

theorem kfitList_curve (obs : ℝ → ℝ) (p : GacObj) : (kfitList S c obs p).1.map KfitOut.curve =
    (S { p.core with kData := p.core.kData.set c (p.testRange.headD 0) (p.xnRange.headD 0) } p.der).1.map fun r => r c := by
  unfold kfitList runPsdm
  simp only
  rcases (S { p.core with kData := p.core.kData.set c (p.testRange.headD 0) (p.xnRange.headD 0) } p.der).1 with e | r <;> rfl

theorem kfitPlain_curve (obs : ℝ → ℝ) (p : GacObj) : (kfitPlain S c obs p).1.map KfitOut.curve =
    (S p.core p.der).1.map fun r => r c := by
  unfold kfitPlain runPsdm
  rcases (S p.core p.der).1 with e | r <;> rfl

/-- One compound of the loop is that run. -/
theorem fullTrial_run (o : GacObj) (c : String) :
    (runKfit S (fullTrial o c) c).1.map KfitOut.curve = Spec.aloneRun S o c := by
  have hsim := single_core (S := S) o c
  have he : (toSingle (fullTrial o c) c).core.data.eff c = o.bup.data.eff c := toSingle_eff _ c
  unfold runKfit Spec.aloneRun
  rw [he, hsim]
  rcases hd : o.bup.data.eff c with _ | tab
  · rfl
  · rw [if_neg (by simp)]
    have hf : kfitFlag (toSingle (fullTrial o c) c) = { toSingle (fullTrial o c) c with optimize := false } := by
      unfold kfitFlag
      rw [if_pos]
      exact ⟨rfl, rfl⟩
    simp only [hf]
    unfold kfitBody
    rw [if_neg (by simp)]
    split
    · rw [kfitList_curve]
      show (S { (toSingle o c).core with kData := o.core.kData.set c (o.core.kData c).K (o.core.kData c).xn } o.der).1.map _ = _
      rw [KTab.set_self]
      rfl
    · rw [kfitPlain_curve]
      rfl

theorem aloneRun_congr {p q : GacObj} (h1 : p.core = q.core) (h2 : p.bup = q.bup) (h3 : p.der = q.der) :
    Spec.aloneRun S p c = Spec.aloneRun S q c := by
  unfold Spec.aloneRun Spec.trialCurve
  rw [h1, h2, h3]

/-- After a compound that returned, the object is the stored one. -/
theorem fullTrial_after {out : KfitOut} (h : runKfit S (fullTrial o c) c = (.ok out, o')) :
    o'.core = o.bup ∧ o'.bup = o.bup ∧ o'.dw = o.dw ∧ o'.vw = o.vw ∧ o'.der = derive o.dw o.vw o.bup.geom ∧
    o'.kInputList = o.kInputList ∧ o'.kByXn = o.kByXn := by
  obtain ⟨⟨r1, r2, r3, -, -, r6, -, r8⟩, -, h3, -⟩ := runKfit_ok S (fullTrial o c) c
  rw [h] at r1 r2 r3 r6 r8 h3
  obtain ⟨e1, e2⟩ := h3 ⟨out, rfl⟩
  exact ⟨e1, r1, r2, r3, e2, r6, r8⟩

theorem fullLoop_clean : ∀ (l : List String) (p : GacObj) (acc : List (ℕ → ℝ)), Spec.Clean p →
    (fullLoop S daily l p acc).1 = (l.mapM (Spec.aloneRun S p)).map fun cs => acc ++ cs.map daily
  | [], p, acc, _ => by
    show Except.ok acc = Except.ok (acc ++ [])
    rw [List.append_nil]
  | c :: l, p, acc, hc => by
    have hrun := fullTrial_run (S := S) p c
    rw [List.mapM_cons]
    unfold fullLoop
    rcases hr : runKfit S (fullTrial p c) c with ⟨e | out, p2⟩
    · rw [hr] at hrun
      rw [← hrun]
      rfl
    · rw [hr] at hrun
      rw [← hrun]
      obtain ⟨a1, a2, a3, a4, a5, -⟩ := fullTrial_after hr
      have hp2 : Spec.Clean p2 := ⟨a1.trans a2.symm, by rw [a5, a3, a4, a1]⟩
      have hsame : Spec.aloneRun S p2 = Spec.aloneRun S p := by
        funext d
        exact aloneRun_congr (a1.trans hc.1.symm) a2 (by rw [a5, hc.2, hc.1])
      simp only
      rw [fullLoop_clean l p2 _ hp2, hsame]
      show _ = ((List.mapM (Spec.aloneRun S p) l) >>= fun r => pure (out.curve :: r)).map _
      rcases List.mapM (Spec.aloneRun S p) l with e | r
      · rfl
      · show Except.ok _ = Except.ok _
        simp

/-- C196. Whatever the object: the first compound with the table as it is, the others with the stored one. -/
theorem c196_general {l : List String} {acc : List (ℕ → ℝ)} :
    (fullLoop S daily (c :: l) o acc).1 = (Spec.aloneRun S o c).bind fun f =>
      (l.mapM (Spec.aloneRun S (resetColumn o))).map fun cs => acc ++ daily f :: cs.map daily := by
  have hrun := fullTrial_run (S := S) o c
  unfold fullLoop
  rcases hr : runKfit S (fullTrial o c) c with ⟨e | out, p2⟩
  · rw [hr] at hrun
    rw [← hrun]
    rfl
  · rw [hr] at hrun
    rw [← hrun]
    obtain ⟨a1, a2, a3, a4, a5, -⟩ := fullTrial_after hr
    have hp2 : Spec.Clean p2 := ⟨a1.trans a2.symm, by rw [a5, a3, a4, a1]⟩
    have hsame : Spec.aloneRun S p2 = Spec.aloneRun S (resetColumn o) := by
      funext d
      exact aloneRun_congr a1 a2 a5
    simp only
    rw [fullLoop_clean l p2 _ hp2, hsame]
    show _ = ((List.mapM (Spec.aloneRun S (resetColumn o)) l)).map _
    rcases List.mapM (Spec.aloneRun S (resetColumn o)) l with e | r
    · rfl
    · show Except.ok _ = Except.ok _
      simp

/-- Data that reach the last day. -/
def Spec.Reaches (md : ℝ) (d : GacData) : Prop :=
  ∀ c l r, (d.infl c = some l ∨ d.eff c = some l) → l.getLast? = some r → md ≤ r.1

theorem stretchTab_id {md : ℝ} {l : List (ℝ × ℝ)} (h : ∀ r, l.getLast? = some r → md ≤ r.1) : stretchTab md l = l := by
  unfold stretchTab
  rcases hl : l.getLast? with _ | r
  · rfl
  · simp only
    rw [if_neg (not_lt.2 (h r hl))]

theorem stretchData_id {md : ℝ} {d : GacData} (h : Spec.Reaches md d) : stretchData md d = d := by
  unfold stretchData
  rcases d with ⟨i, e⟩
  congr 1
  · funext c
    rcases hc : i c with _ | l
    · simp [hc]
    · simp [hc, stretchTab_id (fun r hr => h c l r (.inl hc) hr)]
  · funext c
    rcases hc : e c with _ | l
    · simp [hc]
    · simp [hc, stretchTab_id (fun r hr => h c l r (.inr hc) hr)]

/-- C196, full statement: every compound is simulated on its own with its `K` and `1/n` at the time of the call, and
the rotation is found from these curves. -/
def C196 : Prop := ∀ (S : Sim) (shared : Bool) (daily : (ℝ → ℝ) → ℕ → ℝ) (filter : List String)
  (total per maxDays : ℕ) (target : ℝ) (o : GacObj), Spec.Reaches maxDays o.core.data → Spec.Reaches maxDays o.bup.data →
  (predictFull S shared daily filter total per maxDays target o).1 =
    (filter.mapM (Spec.aloneRun S o)).map fun cs => predictFullScale total per maxDays (cs.map daily) target

theorem predictFull_fst : (predictFull S shared daily filter total per maxDays target o).1 =
    (fullLoop S daily filter (fullStart shared maxDays filter o) []).1.map
      fun cs => predictFullScale total per maxDays cs target := by
  unfold predictFull
  rcases fullLoop S daily filter (fullStart shared maxDays filter o) [] with ⟨e | cs, o2⟩ <;> rfl

theorem fullStart_id (h1 : Spec.Reaches maxDays o.core.data) (h2 : Spec.Reaches maxDays o.bup.data) :
    fullStart shared maxDays filter o =
      { o with optimize := false, core := { o.core with compounds := filter } } := by
  unfold fullStart
  rw [stretchData_id h1, stretchData_id h2]
  cases shared <;> rfl

/-- The list of compounds is replaced for the run. -/
theorem aloneRun_compounds {b : Bool} : Spec.aloneRun S { o with optimize := b, core := { o.core with compounds := filter } } =
    Spec.aloneRun S o := rfl

/-- C196 for an object as made or as any run leaves it. Missing: a table changed by the caller. -/
theorem c196_partial (hc : Spec.Clean o) (h : Spec.Reaches maxDays o.bup.data) :
    (predictFull S shared daily filter total per maxDays target o).1 =
      (filter.mapM (Spec.aloneRun S o)).map fun cs => predictFullScale total per maxDays (cs.map daily) target := by
  rw [predictFull_fst, fullStart_id (by rw [hc.1]; exact h) h]
  rcases filter with _ | ⟨c, l⟩
  · rfl
  · have hreset : Spec.aloneRun S (resetColumn { o with optimize := false, core := { o.core with compounds := c :: l } }) =
        Spec.aloneRun S o := by
      funext d
      exact aloneRun_congr hc.1.symm rfl (by rw [hc.2, hc.1]; rfl)
    rw [c196_general, aloneRun_compounds, hreset, List.mapM_cons]
    rcases Spec.aloneRun S o c with e | f
    · rfl
    · show ((List.mapM (Spec.aloneRun S o) l).map _).map _ = ((List.mapM (Spec.aloneRun S o) l) >>= fun r => pure (f :: r)).map _
      rcases List.mapM (Spec.aloneRun S o) l with e | r
      · rfl
      · show Except.ok _ = Except.ok _
        simp

/-- C196. For any object: only the first compound sees the table as the caller left it. -/
theorem c196_any {l : List String} (h1 : Spec.Reaches maxDays o.core.data) (h2 : Spec.Reaches maxDays o.bup.data) :
    (predictFull S shared daily (c :: l) total per maxDays target o).1 = (Spec.aloneRun S o c).bind fun f =>
      (l.mapM (Spec.aloneRun S (resetColumn o))).map fun cs =>
        predictFullScale total per maxDays (daily f :: cs.map daily) target := by
  have hreset : Spec.aloneRun S (resetColumn { o with optimize := false, core := { o.core with compounds := c :: l } }) =
      Spec.aloneRun S (resetColumn o) := rfl
  rw [predictFull_fst, fullStart_id h1 h2, c196_general, aloneRun_compounds, hreset]
  rcases Spec.aloneRun S o c with e | f
  · rfl
  · show ((List.mapM (Spec.aloneRun S (resetColumn o)) l).map _).map _ = ((List.mapM (Spec.aloneRun S (resetColumn o)) l)).map _
    rcases List.mapM (Spec.aloneRun S (resetColumn o)) l with e | r <;> rfl

open Classical in
theorem c196_false : ¬ C196 := by
  intro h
  let S : Sim := fun co _ => (if co.compounds = ["B"] ∧ (co.kData "B").K = 7 then .error .valueError else .ok fun _ _ => 0,
    fun _ => ⟨0, 0, 0⟩)
  let o : GacObj := { demoObj false with core := { demoCore with kData := demoCore.kData.set "B" 7 1 } }
  have hd : Spec.Reaches ((0 : ℕ) : ℝ) o.bup.data := by
    intro c l r h1 h2
    have hl : l = [(0, 1), (1, 1)] ∨ l = [(0, 0), (10, 1)] := by
      rcases h1 with h1 | h1 <;> · simp [o, demoObj, demoCore] at h1; simp [← h1]
    rcases hl with rfl | rfl <;> · simp at h2; rw [← h2]; norm_num
  have e := h S false (fun _ _ => 0) ["A", "B"] 1 1 0 0 o hd hd
  rw [c196_any (o := o) hd hd] at e
  have hA : Spec.aloneRun S o "A" = .ok fun _ => 0 := by
    unfold Spec.aloneRun Spec.trialCurve
    rw [if_neg (by simp [o, demoObj, demoCore])]
    simp only [S]
    rw [if_neg (fun h => absurd h.1 (by decide))]
    rfl
  have hB : Spec.aloneRun S (resetColumn o) "B" = .ok fun _ => 0 := by
    unfold Spec.aloneRun Spec.trialCurve
    rw [if_neg (by simp [o, demoObj, demoCore, resetColumn])]
    simp only [S]
    rw [if_neg (fun h => absurd h.2 (by simp [o, demoObj, demoCore, resetColumn]))]
    rfl
  have hB' : Spec.aloneRun S o "B" = .error .valueError := by
    unfold Spec.aloneRun Spec.trialCurve
    rw [if_neg (by simp [o, demoObj, demoCore])]
    simp only [S]
    rw [if_pos ⟨trivial, by simp [o, KTab.set]⟩]
    rfl
  simp only [List.mapM_cons, List.mapM_nil] at e
  rw [hA, hB, hB'] at e
  cases e

/-! ### C197 -/

/-- C197, full statement: a prediction that returns leaves the object as it was, except for the record of the
coefficients used. -/
def C197 : Prop := ∀ (S : Sim) (shared : Bool) (daily : (ℝ → ℝ) → ℕ → ℝ) (filter : List String)
  (total per maxDays : ℕ) (target : ℝ) (o o' : GacObj) (r : ℕ × List ℝ), Spec.Clean o →
  predictFull S shared daily filter total per maxDays target o = (.ok r, o') → { o' with mtData := o.mtData } = o

/-- What the loop leaves. -/
theorem fullLoop_after : ∀ {l : List String} {p p' : GacObj} {acc cs : List (ℕ → ℝ)},
    fullLoop S daily l p acc = (.ok cs, p') →
    (l = [] → p' = p) ∧ (l ≠ [] → p'.core = p.bup ∧ p'.der = derive p.dw p.vw p.bup.geom) ∧
    p'.bup = p.bup ∧ p'.dw = p.dw ∧ p'.vw = p.vw ∧ p'.kInputList = p.kInputList ∧ p'.kByXn = p.kByXn
  | [], p, p', acc, cs, h => by
    simp only [fullLoop, Prod.mk.injEq] at h
    obtain ⟨-, rfl⟩ := h
    exact ⟨fun _ => rfl, fun h => absurd rfl h, rfl, rfl, rfl, rfl, rfl⟩
  | c :: l, p, p', acc, cs, h => by
    unfold fullLoop at h
    rcases hr : runKfit S (fullTrial p c) c with ⟨e | out, p2⟩
    · rw [hr] at h
      simp at h
    · rw [hr] at h
      obtain ⟨a1, a2, a3, a4, a5, a6, a7⟩ := fullTrial_after hr
      obtain ⟨b1, b2, b3, b4, b5, b6, b7⟩ := fullLoop_after h
      refine ⟨fun h => absurd h (by simp), fun _ => ?_, b3.trans a2, b4.trans a3, b5.trans a4, b6.trans a6, b7.trans a7⟩
      by_cases hl : l = []
      · rw [b1 hl]
        exact ⟨a1, a5⟩
      · obtain ⟨c1, c2⟩ := b2 hl
        rw [c1, c2, a2, a3, a4]
        exact ⟨rfl, rfl⟩

theorem predictFull_ok {r : ℕ × List ℝ} (h : predictFull S shared daily filter total per maxDays target o = (.ok r, o')) :
    ∃ cs p, fullLoop S daily filter (fullStart shared maxDays filter o) [] = (.ok cs, p) ∧
      o' = { p with optimize := o.optimize, testRange := o.testRange, xnRange := o.xnRange, xnDefault := o.xnDefault,
                    core := { p.core with compounds := o.core.compounds } } := by
  unfold predictFull at h
  rcases hl : fullLoop S daily filter (fullStart shared maxDays filter o) [] with ⟨e | cs, p⟩
  · rw [hl] at h
    simp at h
  · rw [hl] at h
    simp only [Prod.mk.injEq] at h
    exact ⟨cs, p, rfl, h.2.symm⟩

/-- C197 with data that reach the last day, or stored data of their own and some compound. Missing: data that end
before and share their times with the stored copy. -/
theorem c197_partial {r : ℕ × List ℝ} (hc : Spec.Clean o)
    (hd : Spec.Reaches maxDays o.bup.data ∨ (shared = false ∧ filter ≠ []))
    (h : predictFull S shared daily filter total per maxDays target o = (.ok r, o')) :
    { o' with mtData := o.mtData } = o := by
  obtain ⟨cs, p, hl, rfl⟩ := predictFull_ok h
  obtain ⟨b1, b2, b3, b4, b5, b6, b7⟩ := fullLoop_after hl
  have hb : (fullStart shared maxDays filter o).bup = o.bup := by
    rcases hd with hd | ⟨hd, -⟩
    · unfold fullStart
      rw [stretchData_id hd]
      cases shared <;> rfl
    · rw [hd]; rfl
  rw [hb] at b2 b3
  obtain ⟨hc1, hc2⟩ := hc
  have hcore : ({ p.core with compounds := o.core.compounds } : Core) = o.core ∧ p.der = o.der := by
    by_cases hf : filter = []
    · rcases hd with hd | ⟨-, hn⟩
      · rw [b1 hf, fullStart_id (by rw [hc1]; exact hd) hd]
        exact ⟨rfl, rfl⟩
      · exact absurd hf hn
    · obtain ⟨e1, e2⟩ := b2 hf
      rw [e1, e2, hc2, hc1]
      exact ⟨rfl, rfl⟩
  obtain ⟨k1, k2⟩ := hcore
  cases o; cases p
  simp only [GacObj.mk.injEq, true_and] at *
  exact ⟨k1, k2, b3, b4, b5, b6, b7⟩

/-- C197. Otherwise the last time of every table of the object and of its stored copy is the last day from then on. -/
theorem c197_stretched {r : ℕ × List ℝ} {l : List (ℝ × ℝ)} {x : ℝ × ℝ} (hf : filter ≠ [])
    (hl : o.bup.data.eff c = some l) (hx : l.getLast? = some x) (hlt : x.1 < maxDays)
    (h : predictFull S true daily filter total per maxDays target o = (.ok r, o')) :
    o'.core.data.eff c = some (l.dropLast ++ [((maxDays : ℝ), x.2)]) ∧
    o'.bup.data.eff c = some (l.dropLast ++ [((maxDays : ℝ), x.2)]) := by
  obtain ⟨cs, p, hp, rfl⟩ := predictFull_ok h
  obtain ⟨b1, b2, b3, -⟩ := fullLoop_after hp
  obtain ⟨e1, -⟩ := b2 hf
  have : (fullStart true maxDays filter o).bup.data.eff c = some (l.dropLast ++ [((maxDays : ℝ), x.2)]) := by
    simp only [fullStart, if_true, stretchData, hl, Option.map_some, stretchTab, hx]
    rw [if_pos hlt]
  refine ⟨?_, ?_⟩
  · show p.core.data.eff c = _
    rw [e1, this]
  · show p.bup.data.eff c = _
    rw [b3, this]

/-- C197. A table the caller changed is replaced by the stored one. -/
theorem c197_table {r : ℕ × List ℝ} (hf : filter ≠ [])
    (h : predictFull S shared daily filter total per maxDays target o = (.ok r, o')) :
    o'.core.kData = o.bup.kData ∧ o'.core.geom = o.bup.geom ∧ o'.core.mt = o.bup.mt := by
  obtain ⟨cs, p, hp, rfl⟩ := predictFull_ok h
  obtain ⟨-, b2, -⟩ := fullLoop_after hp
  obtain ⟨e1, -⟩ := b2 hf
  have : (fullStart shared maxDays filter o).bup.kData = o.bup.kData ∧ (fullStart shared maxDays filter o).bup.geom = o.bup.geom ∧
      (fullStart shared maxDays filter o).bup.mt = o.bup.mt := by
    cases shared <;> exact ⟨rfl, rfl, rfl⟩
  show p.core.kData = _ ∧ p.core.geom = _ ∧ p.core.mt = _
  rw [e1]
  exact this

/-- C197. When the first compound raises, the object stays set up for it: one trial, no search, that compound alone. -/
theorem c197_raise {l : List String} {e : PyErr} (he : (runKfit S (fullTrial (fullStart shared maxDays (c :: l) o) c) c).1 = .error e) :
    let r := predictFull S shared daily (c :: l) total per maxDays target o
    r.1 = .error e ∧ r.2.optimize = false ∧ r.2.testRange = [(o.core.kData c).K] ∧ r.2.xnRange = [(o.core.kData c).xn] ∧
    r.2.core.compounds = [c] := by
  intro r
  obtain ⟨⟨-, -, -, r4, r5, -⟩, h2, -, h4⟩ := runKfit_ok S (fullTrial (fullStart shared maxDays (c :: l) o) c) c
  have hr : r = (.error e, (runKfit S (fullTrial (fullStart shared maxDays (c :: l) o) c) c).2) := by
    show predictFull S shared daily (c :: l) total per maxDays target o = _
    unfold predictFull fullLoop
    rcases hk : runKfit S (fullTrial (fullStart shared maxDays (c :: l) o) c) c with ⟨e' | out, p⟩
    · rw [hk] at he
      simp only [Except.error.injEq] at he
      rw [he]
    · rw [hk] at he
      simp at he
  rw [hr]
  obtain ⟨-, k, x, hk⟩ := h4 ⟨e, he⟩
  refine ⟨rfl, ?_, r4, r5, ?_⟩
  · show (runKfit S (fullTrial (fullStart shared maxDays (c :: l) o) c) c).2.optimize = false
    rw [h2]
    split <;> rfl
  · show (runKfit S (fullTrial (fullStart shared maxDays (c :: l) o) c) c).2.core.compounds = [c]
    rw [hk]
    rfl

theorem demo_full {sh : Bool} {md : ℕ} : ∃ r o', predictFull demoSim sh (fun _ _ => 0) ["A"] 1 1 md 0 (demoObj false) = (.ok r, o') := by
  have hne : (fullTrial (fullStart sh md ["A"] (demoObj false)) "A").bup.data.eff "A" ≠ none := by
    cases sh <;> simp [fullTrial, fullStart, demoObj, demoCore, stretchData]
  obtain ⟨out, h⟩ := runKfit_returns (S := demoSim) (fun _ _ => ⟨_, rfl⟩)
    (o := fullTrial (fullStart sh md ["A"] (demoObj false)) "A") (c := "A") hne
  rcases hk : runKfit demoSim (fullTrial (fullStart sh md ["A"] (demoObj false)) "A") "A" with ⟨e | out', p⟩
  · rw [hk] at h
    cases h
  · unfold predictFull fullLoop
    rw [hk]
    exact ⟨_, _, rfl⟩

theorem c197_false : ¬ C197 := by
  intro h
  obtain ⟨r, o', hr⟩ := demo_full (sh := true) (md := 50)
  have e := h demoSim true (fun _ _ => 0) ["A"] 1 1 50 0 (demoObj false) o' r (demo_clean false) hr
  obtain ⟨l, x, hl, hx, hlt⟩ : ∃ l x, (demoObj false).bup.data.eff "A" = some l ∧ l.getLast? = some x ∧ x.1 < ((50 : ℕ) : ℝ) :=
    ⟨_, _, rfl, rfl, by norm_num⟩
  have e2 := (c197_stretched (c := "A") (by simp) hl hx hlt hr).2
  have e3 : o'.bup.data.eff "A" = some l := by
    rw [← hl]
    have := congrArg GacObj.bup e
    simp only at this
    rw [this]
  rw [e3, Option.some.injEq] at e2
  have : x = (((50 : ℕ) : ℝ), x.2) := by
    rw [e2, List.getLast?_concat, Option.some.injEq] at hx
    rw [← hx]
  rw [this] at hlt
  exact lt_irrefl _ hlt

/-- With data of its own the stored copy is left alone: hypotheses of `c197_partial`. -/
example : ∃ r o', predictFull demoSim false (fun _ _ => 0) ["A"] 1 1 5 0 (demoObj false) = (.ok r, o') ∧
    { o' with mtData := (demoObj false).mtData } = demoObj false := by
  obtain ⟨r, o', h⟩ := demo_full (sh := false) (md := 5)
  exact ⟨r, o', h, c197_partial (demo_clean false) (.inr ⟨rfl, by simp⟩) h⟩

/-- A run that raises: hypotheses of `c197_raise`. -/
example : (predictFull (fun _ _ => (.error .valueError, fun _ => ⟨0, 0, 0⟩)) false (fun _ _ => 0) ["A"] 1 1 5 0
    (demoObj false)).2.core.compounds = ["A"] :=
  (c197_raise (e := .valueError) rfl).2.2.2.2

end
end WTM
