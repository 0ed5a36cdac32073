import Mathlib.Tactic
import Verif.Model.RGraph
import Verif.Props.RIexWeb

/-! C266: what the two graphs of the ion exchange web application show. -/
set_option autoImplicit false
namespace WTM
variable {α : Type}

/-- The points a trace shows: rows of `NA` are not drawn. -/
def Spec.points (t : List (Option (String × α))) : List (String × α) := t.filterMap id

/-- A table of measurements under the names of the ions with a suffix. -/
def Spec.measured (sfx : String) (rows : List (String × α)) : List (String × α) := rows.map fun x => (x.1 ++ sfx, x.2)

/-- The claim in full: the first graph shows what there is of the four inorganic ions, the second one the rest: computed curves, measured
effluents and influents. -/
def C266 : Prop := ∀ (curves cols : List (String × List ℝ)) (nt : ℕ) (eff inf : List (String × ℝ)), 0 < nt →
  (∀ c ∈ curves, c.2.length = nt) → (curves.map (·.1)).Nodup → (cols.map (·.1)).Perm (curves.map (·.1)) →
  let n := rCounterCount cols
  let e := (Spec.measured "_effluent" eff).map some
  let i := (Spec.measured "_influent" inf).map some
  let g1 := rGraphCounter true true true (rCounterRows n nt (Spec.stack curves)) e i
  let g2 := rGraphOther true true true (rOtherRows n nt (Spec.stack curves)) e i
  (Spec.points g1.computed = Spec.stack (curves.filter fun c => Spec.isCounter c.1) ∧
    Spec.points g2.computed = Spec.stack (curves.filter fun c => !Spec.isCounter c.1)) ∧
  (Spec.points g1.effluent = Spec.measured "_effluent" (eff.filter fun c => Spec.isCounter c.1) ∧
    Spec.points g2.effluent = Spec.measured "_effluent" (eff.filter fun c => !Spec.isCounter c.1)) ∧
  Spec.points g1.influent = Spec.measured "_influent" (inf.filter fun c => Spec.isCounter c.1) ∧
    Spec.points g2.influent = Spec.measured "_influent" (inf.filter fun c => !Spec.isCounter c.1)

theorem graphNames_iff (n : String) : rGraphNames.contains n = Spec.isCounter n := by
  rw [Bool.eq_iff_iff]
  simp only [rGraphNames, Spec.isCounter, List.contains_iff_mem, List.mem_cons, List.not_mem_nil, or_false, decide_eq_true_eq]
  tauto

theorem append_cancel (a b s : String) : a ++ s = b ++ s ↔ a = b := by
  constructor
  · intro h
    have := congrArg String.toList h
    rw [String.toList_append, String.toList_append, List.append_left_inj] at this
    exact String.toList_inj.1 this
  · rintro rfl
    rfl

theorem graphEff_iff (n : String) : rGraphEffNames.contains (n ++ "_effluent") = Spec.isCounter n := by
  rw [Bool.eq_iff_iff]
  have e1 : "CHLORIDE_effluent" = "CHLORIDE" ++ "_effluent" := by decide
  have e2 : "SULFATE_effluent" = "SULFATE" ++ "_effluent" := by decide
  have e3 : "NITRATE_effluent" = "NITRATE" ++ "_effluent" := by decide
  have e4 : "BICARBONATE_effluent" = "BICARBONATE" ++ "_effluent" := by decide
  simp only [rGraphEffNames, Spec.isCounter, List.contains_iff_mem, List.mem_cons, List.not_mem_nil, or_false, decide_eq_true_eq, e1, e2, e3,
    e4, append_cancel]
  tauto

theorem graphInf_iff (n : String) : rGraphInfNames.contains (n ++ "_influent") = Spec.isCounter n := by
  rw [Bool.eq_iff_iff]
  have e1 : "CHLORIDE_influent" = "CHLORIDE" ++ "_influent" := by decide
  have e2 : "SULFATE_influent" = "SULFATE" ++ "_influent" := by decide
  have e3 : "NITRATE_influent" = "NITRATE" ++ "_influent" := by decide
  have e4 : "BICARBONATE_influent" = "BICARBONATE" ++ "_influent" := by decide
  simp only [rGraphInfNames, Spec.isCounter, List.contains_iff_mem, List.mem_cons, List.not_mem_nil, or_false, decide_eq_true_eq, e1, e2, e3,
    e4, append_cancel]
  tauto

theorem points_in (names : List String) (l : List (String × α)) :
    Spec.points (rSubsetIn names (l.map some)) = l.filter fun x => names.contains x.1 := by
  unfold Spec.points rSubsetIn
  rw [List.filter_map, List.filterMap_map]
  exact List.filterMap_some

theorem points_out (names : List String) (l : List (String × α)) :
    Spec.points (rSubsetOut names (l.map some)) = l.filter fun x => !names.contains x.1 := by
  unfold Spec.points rSubsetOut
  rw [List.filter_map, List.filterMap_map]
  exact List.filterMap_some

theorem points_ne (names : List String) (l : List (String × α)) :
    Spec.points (rSubsetNe names (l.map some)) = l.filter fun x => !names.contains x.1 := by
  unfold Spec.points rSubsetNe
  rw [List.filter_map, List.filterMap_map]
  exact List.filterMap_some

theorem measured_filter (sfx : String) (p : String → Bool) (q : String → Bool) (h : ∀ n, p (n ++ sfx) = q n) (l : List (String × α)) :
    (Spec.measured sfx l).filter (fun x => p x.1) = Spec.measured sfx (l.filter fun x => q x.1) := by
  unfold Spec.measured
  rw [List.filter_map]
  congr 1
  refine List.filter_congr fun x _ => ?_
  exact h x.1

theorem stack_filter (p : String → Bool) (l : List (String × List ℝ)) :
    (Spec.stack l).filter (fun x => p x.1) = Spec.stack (l.filter fun c => p c.1) := by
  unfold Spec.stack
  induction l with
  | nil => rfl
  | cons c l ih =>
    rw [List.flatMap_cons, List.filter_append, ih]
    by_cases h : p c.1 = true
    · rw [List.filter_cons_of_pos (p := fun c : String × List ℝ => p c.1) h, List.flatMap_cons]
      congr 1
      rw [List.filter_eq_self]
      intro a ha
      obtain ⟨y, _, rfl⟩ := List.mem_map.1 ha
      exact h
    · rw [List.filter_cons_of_neg (p := fun c : String × List ℝ => p c.1) h]
      have : (c.2.map fun y => (c.1, y)).filter (fun x => p x.1) = [] := by
        rw [List.filter_eq_nil_iff]
        intro a ha
        obtain ⟨y, _, rfl⟩ := List.mem_map.1 ha
        exact h
      rw [this, List.nil_append]

/-- C266: measured effluents and influents are in the graph of their ion, whatever the order. -/
theorem c266_measured (comp1 comp2 : List (Option (String × α))) (eff inf : List (String × α)) :
    let e := (Spec.measured "_effluent" eff).map some
    let i := (Spec.measured "_influent" inf).map some
    let g1 := rGraphCounter true true true comp1 e i
    let g2 := rGraphOther true true true comp2 e i
    (Spec.points g1.effluent = Spec.measured "_effluent" (eff.filter fun c => Spec.isCounter c.1) ∧
      Spec.points g2.effluent = Spec.measured "_effluent" (eff.filter fun c => !Spec.isCounter c.1)) ∧
    Spec.points g1.influent = Spec.measured "_influent" (inf.filter fun c => Spec.isCounter c.1) ∧
      Spec.points g2.influent = Spec.measured "_influent" (inf.filter fun c => !Spec.isCounter c.1) := by
  refine ⟨⟨?_, ?_⟩, ?_, ?_⟩
  · exact (points_in _ _).trans (measured_filter _ (fun n => rGraphEffNames.contains n) _ graphEff_iff _)
  · exact (points_out _ _).trans (measured_filter _ (fun n => !rGraphEffNames.contains n) (fun n => !Spec.isCounter n)
      (fun n => congrArg not (graphEff_iff n)) _)
  · exact (points_in _ _).trans (measured_filter _ (fun n => rGraphInfNames.contains n) _ graphInf_iff _)
  · exact (points_ne _ _).trans (measured_filter _ (fun n => !rGraphInfNames.contains n) (fun n => !Spec.isCounter n)
      (fun n => congrArg not (graphInf_iff n)) _)

/-- C266: of the computed curves, the first graph shows the four inorganic ions among the first `n` of the ion sheet and the second one the
others among the rest, `n` being how many of the four there are. -/
theorem c266_drawn (curves cols : List (String × List ℝ)) (nt : ℕ) (hnt : 0 < nt) (hl : ∀ c ∈ curves, c.2.length = nt)
    (hn : (curves.map (·.1)).Nodup) (hp : (cols.map (·.1)).Perm (curves.map (·.1))) (be bi : Bool) (e i : List (Option (String × ℝ))) :
    let n := (curves.filter fun c => Spec.isCounter c.1).length
    Spec.points (rGraphCounter true be bi (rCounterRows (rCounterCount cols) nt (Spec.stack curves)) e i).computed =
      Spec.stack ((curves.take n).filter fun c => Spec.isCounter c.1) ∧
    Spec.points (rGraphOther true be bi (rOtherRows (rCounterCount cols) nt (Spec.stack curves)) e i).computed =
      Spec.stack ((curves.drop n).filter fun c => !Spec.isCounter c.1) := by
  intro n
  have hc : rCounterCount cols = n := counterCount_eq _ _ hn hp
  have h1 : ∀ l : List (String × List ℝ), Spec.points (rSubsetIn rGraphNames ((Spec.stack l).map some)) =
      Spec.stack (l.filter fun c => Spec.isCounter c.1) := fun l => by
    rw [points_in]
    simp only [graphNames_iff]
    exact stack_filter Spec.isCounter l
  have h2 : ∀ l : List (String × List ℝ), Spec.points (rSubsetOut rGraphNames ((Spec.stack l).map some)) =
      Spec.stack (l.filter fun c => !Spec.isCounter c.1) := fun l => by
    rw [points_out]
    simp only [graphNames_iff]
    exact stack_filter (fun n => !Spec.isCounter n) l
  by_cases h : ∃ c ∈ curves, Spec.isCounter c.1 = false
  · obtain ⟨e1, e2, -⟩ := c148_once curves cols nt hnt hl hn hp h
    show Spec.points (rSubsetIn rGraphNames (rCounterRows _ nt _)) = _ ∧ Spec.points (rSubsetOut rGraphNames (rOtherRows _ nt _)) = _
    rw [e1, e2, h1, h2, hc]
    exact ⟨rfl, rfl⟩
  · push Not at h
    have h' : ∀ c ∈ curves, Spec.isCounter c.1 = true := fun c hc => by simpa using h c hc
    have hn' : n = curves.length := by
      show (curves.filter fun c => Spec.isCounter c.1).length = _
      rw [List.filter_eq_self.2 (by simpa using h')]
    constructor
    · show Spec.points (rSubsetIn rGraphNames (rCounterRows _ nt _)) = _
      unfold rCounterRows
      rw [hc, hn', List.take_of_length_le (stack_length curves nt hl).le, h1, List.take_length]
    · show Spec.points (rSubsetOut rGraphNames (rOtherRows _ nt _)) = _
      rw [hn', List.drop_length]
      by_cases h0 : curves = []
      · subst h0
        rw [hc, show n = 0 from rfl]
        simp [rOtherRows, Spec.stack, Spec.points, rSubsetOut, List.range_succ]
      · rw [c148_all curves cols nt hnt hl hn hp h' h0]
        have hs : Spec.stack curves ≠ [] := fun e => by
          have := stack_length curves nt hl
          rw [e] at this
          exact (Nat.mul_pos (List.length_pos_iff.2 h0) hnt).ne this
        rw [List.getLast?_eq_getLast_of_ne_nil hs]
        have hm := List.getLast_mem hs
        obtain ⟨c, hc1, hc2⟩ := List.mem_flatMap.1 hm
        obtain ⟨y, -, hy⟩ := List.mem_map.1 hc2
        rw [← hy]
        have : Spec.isCounter c.1 = true := h' c hc1
        have hf : rGraphNames.contains c.1 = true := (graphNames_iff _).trans this
        simp only [Spec.points, rSubsetOut, Spec.stack, List.filter_cons, hf, List.filter_nil]
        rfl

/-- C266, when the four inorganic ions come first in the ion sheet, alone or not. -/
theorem c266_partial (pre post cols : List (String × List ℝ)) (nt : ℕ) (eff inf : List (String × ℝ)) (hnt : 0 < nt)
    (hl : ∀ c ∈ pre ++ post, c.2.length = nt) (hn : ((pre ++ post).map (·.1)).Nodup)
    (hp : (cols.map (·.1)).Perm ((pre ++ post).map (·.1))) (h1 : ∀ c ∈ pre, Spec.isCounter c.1 = true)
    (h2 : ∀ c ∈ post, Spec.isCounter c.1 = false) :
    let n := rCounterCount cols
    let e := (Spec.measured "_effluent" eff).map some
    let i := (Spec.measured "_influent" inf).map some
    let g1 := rGraphCounter true true true (rCounterRows n nt (Spec.stack (pre ++ post))) e i
    let g2 := rGraphOther true true true (rOtherRows n nt (Spec.stack (pre ++ post))) e i
    (Spec.points g1.computed = Spec.stack pre ∧ Spec.points g2.computed = Spec.stack post) ∧
    (Spec.points g1.effluent = Spec.measured "_effluent" (eff.filter fun c => Spec.isCounter c.1) ∧
      Spec.points g2.effluent = Spec.measured "_effluent" (eff.filter fun c => !Spec.isCounter c.1)) ∧
    Spec.points g1.influent = Spec.measured "_influent" (inf.filter fun c => Spec.isCounter c.1) ∧
      Spec.points g2.influent = Spec.measured "_influent" (inf.filter fun c => !Spec.isCounter c.1) := by
  intro n e i g1 g2
  refine ⟨?_, c266_measured _ _ eff inf⟩
  have hd := c266_drawn (pre ++ post) cols nt hnt hl hn hp true true e i
  have f1 : pre.filter (fun c => Spec.isCounter c.1) = pre := List.filter_eq_self.2 (by simpa using h1)
  have f2 : post.filter (fun c => Spec.isCounter c.1) = [] := List.filter_eq_nil_iff.2 fun c hc => by simp [h2 c hc]
  have f3 : post.filter (fun c => !Spec.isCounter c.1) = post := List.filter_eq_self.2 fun c hc => by simp [h2 c hc]
  rw [List.filter_append, f1, f2, List.append_nil] at hd
  simp only at hd
  rw [List.take_left, List.drop_left, f1, f3] at hd
  exact hd

/-- C266: a curve that is not in its place is in neither graph. -/
theorem c266_lost (curves cols : List (String × List ℝ)) (nt : ℕ) (hnt : 0 < nt) (hl : ∀ c ∈ curves, c.2.length = nt)
    (hn : (curves.map (·.1)).Nodup) (hp : (cols.map (·.1)).Perm (curves.map (·.1))) (be bi : Bool) (e i : List (Option (String × ℝ)))
    {k : ℕ} (hk : k < curves.length)
    (hw : ¬ (Spec.isCounter curves[k].1 = true ↔ k < (curves.filter fun c => Spec.isCounter c.1).length)) (y : ℝ) :
    (curves[k].1, y) ∉ Spec.points (rGraphCounter true be bi (rCounterRows (rCounterCount cols) nt (Spec.stack curves)) e i).computed ∧
    (curves[k].1, y) ∉ Spec.points (rGraphOther true be bi (rOtherRows (rCounterCount cols) nt (Spec.stack curves)) e i).computed := by
  obtain ⟨h1, h2⟩ := c266_drawn curves cols nt hnt hl hn hp be bi e i
  rw [h1, h2]
  set n := (curves.filter fun c => Spec.isCounter c.1).length with hN
  have key : ∀ l : List (String × List ℝ), (curves[k].1, y) ∈ Spec.stack l → ∃ c ∈ l, c.1 = curves[k].1 := by
    intro l h
    obtain ⟨c, hc, hy⟩ := List.mem_flatMap.1 h
    obtain ⟨_, _, e⟩ := List.mem_map.1 hy
    exact ⟨c, hc, (Prod.mk.inj e).1⟩
  have pos : ∀ j (hj : j < curves.length), curves[j].1 = curves[k].1 → j = k := by
    intro j hj hjk
    have := (List.Nodup.getElem_inj_iff hn (i := j) (j := k) (hi := by simpa using hj) (hj := by simpa using hk)).1 (by simpa using hjk)
    exact this
  constructor
  · intro h
    obtain ⟨c, hc, hck⟩ := key _ h
    obtain ⟨hc1, hc2⟩ := List.mem_filter.1 hc
    obtain ⟨j, hj, rfl⟩ := List.mem_iff_getElem.1 hc1
    rw [List.getElem_take] at hck hc2
    have hj' : j < n ∧ j < curves.length := by simpa using hj
    have := pos j hj'.2 hck
    subst this
    exact hw ⟨fun _ => hj'.1, fun _ => hc2⟩
  · intro h
    obtain ⟨c, hc, hck⟩ := key _ h
    obtain ⟨hc1, hc2⟩ := List.mem_filter.1 hc
    obtain ⟨j, hj, rfl⟩ := List.mem_iff_getElem.1 hc1
    rw [List.getElem_drop] at hck hc2
    have hj' : n + j < curves.length := by
      rw [List.length_drop] at hj
      omega
    have := pos (n + j) hj' hck
    subst this
    refine hw ⟨fun h3 => ?_, fun h3 => absurd h3 (by omega)⟩
    rw [h3] at hc2
    cases hc2

/-- C266: as many inorganic ions are lost as others. -/
theorem c266_even (curves : List (String × List ℝ)) :
    let n := (curves.filter fun c => Spec.isCounter c.1).length
    ((curves.take n).filter fun c => !Spec.isCounter c.1).length = ((curves.drop n).filter fun c => Spec.isCounter c.1).length := by
  intro n
  have h1 : (curves.filter fun c => Spec.isCounter c.1).length =
      ((curves.take n).filter fun c => Spec.isCounter c.1).length + ((curves.drop n).filter fun c => Spec.isCounter c.1).length := by
    rw [← List.length_append, ← List.filter_append, List.take_append_drop]
  have h2 : (curves.take n).length = n := List.length_take_of_le (List.length_filter_le _ _)
  have h3 : ∀ l : List (String × List ℝ), l.length = (l.filter fun c => Spec.isCounter c.1).length + (l.filter fun c => !Spec.isCounter c.1).length := by
    intro l
    induction l with
    | nil => rfl
    | cons c l ih => by_cases h : Spec.isCounter c.1 = true <;> simp [h] <;> omega
  have h4 := h3 (curves.take n)
  omega

/-- C266: a box that is not ticked takes its points from both graphs and leaves the rest as it is. -/
theorem c266_boxes (bc be bi : Bool) (c1 c2 e i : List (Option (String × α))) :
    let g1 := rGraphCounter bc be bi c1 e i
    let g2 := rGraphOther bc be bi c2 e i
    let f1 := rGraphCounter true true true c1 e i
    let f2 := rGraphOther true true true c2 e i
    (Spec.points g1.computed = (if bc then Spec.points f1.computed else []) ∧ Spec.points g2.computed = if bc then Spec.points f2.computed else []) ∧
    (Spec.points g1.effluent = (if be then Spec.points f1.effluent else []) ∧ Spec.points g2.effluent = if be then Spec.points f2.effluent else []) ∧
    Spec.points g1.influent = (if bi then Spec.points f1.influent else []) ∧ Spec.points g2.influent = if bi then Spec.points f2.influent else [] := by
  cases bc <;> cases be <;> cases bi <;> exact ⟨⟨rfl, rfl⟩, ⟨rfl, rfl⟩, rfl, rfl⟩

/-- PFOA before chloride: neither curve is drawn anywhere. -/
theorem c266_none : let curves : List (String × List ℝ) := [("PFOA", [1]), ("CHLORIDE", [2])]
    Spec.points (rGraphCounter true true true (rCounterRows (rCounterCount curves) 1 (Spec.stack curves)) [] []).computed = [] ∧
    Spec.points (rGraphOther true true true (rOtherRows (rCounterCount curves) 1 (Spec.stack curves)) [] []).computed = [] := by
  intro curves
  have h := c266_drawn curves curves 1 one_pos (by simp [curves]) (by simp [curves]) (List.Perm.refl _) true true [] []
  have e : (curves.filter fun c => Spec.isCounter c.1).length = 1 := by simp [curves, Spec.isCounter]
  rw [e] at h
  simpa [curves, List.filter_cons, Spec.isCounter, Spec.stack] using h

theorem c266_false : ¬ C266 := by
  intro H
  obtain ⟨⟨h, -⟩, -⟩ := H [("PFOA", [1]), ("CHLORIDE", [2])] [("PFOA", [1]), ("CHLORIDE", [2])] 1 [] [] one_pos (by simp) (by simp) (List.Perm.refl _)
  have := c266_none.1
  beta_reduce at h this
  erw [this] at h
  simp [Spec.isCounter, Spec.stack] at h

/-- The hypotheses of `c266_partial` and `c266_drawn` meet with two inorganic ions, PFOA and an influent table in another order. -/
example : let curves := plotPre ++ plotPost
    Spec.points (rGraphCounter true true true (rCounterRows (rCounterCount plotCols) 2 (Spec.stack curves)) [] []).computed =
      [("CHLORIDE", 1), ("CHLORIDE", 2), ("NITRATE", 3), ("NITRATE", 4)] ∧
    Spec.points (rGraphOther true true true (rOtherRows (rCounterCount plotCols) 2 (Spec.stack curves)) [] []).computed =
      [("PFOA", 5), ("PFOA", 6)] := by
  have h := (c266_partial plotPre plotPost plotCols 2 [] [] (by norm_num) (by simp [plotPre, plotPost]) (by simp [plotPre, plotPost])
    (by show ["PFOA", "CHLORIDE", "NITRATE"].Perm ["CHLORIDE", "NITRATE", "PFOA"]; decide) (by simp [plotPre, Spec.isCounter])
    (by simp [plotPost, Spec.isCounter])).1
  exact h

end WTM
