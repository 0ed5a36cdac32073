import Mathlib.Tactic
import Verif.Model.RWeb
import Verif.Spec.Web
import Verif.Props.RWeb
import Verif.Props.Corr

/-! C144-C148: influent, concentrations, calculators and plots of the ion-exchange web application. -/
set_option autoImplicit false
namespace WTM

/-! ### C144: which influent an ion gets -/

/-- Milliequivalents per litre of one unit of concentration, by definition: milligrams over molecular weight times valence.
The units are those the manual accepts. -/
noncomputable def Spec.meq (mw val : ℝ) (u : String) : Option ℝ :=
  if u = "meq" then some 1 else (Spec.massUnits.lookup u).map fun m => m / mw * val

/-- Units accepted by the manual, Shiny-IEX/README.md:127. -/
def concMenu : List String := ["meq", "mg", "ug", "ng"]

theorem meqMult_eq (i : RIon) (h : i.concUnits ∈ concMenu) :
    ∃ m, rMeqMult i = some m ∧ Spec.meq i.mw i.valence i.concUnits = some m := by
  have hu := h
  simp only [concMenu, List.mem_cons, List.not_mem_nil, or_false] at hu
  unfold rMeqMult Spec.meq
  rcases hu with hu | hu | hu | hu <;> rw [hu]
  · exact ⟨1, by rw [if_neg (by simp)], if_pos rfl⟩
  · refine ⟨1 / i.mw * i.valence, ?_, ?_⟩
    · rw [if_pos (by decide)]; rfl
    · rw [if_neg (by decide)]; rfl
  · refine ⟨1e-3 / i.mw * i.valence, ?_, ?_⟩
    · rw [if_pos (by decide)]; rfl
    · rw [if_neg (by decide)]
      show some (1 / 1000 / i.mw * i.valence) = _
      norm_num
  · refine ⟨1e-6 / i.mw * i.valence, ?_, ?_⟩
    · rw [if_pos (by decide)]; rfl
    · rw [if_neg (by decide)]
      show some (1 / 1000000 / i.mw * i.valence) = _
      norm_num

/-- Every column after `cin_correct`: the original one times the factor of the ion of its name, if there is one. -/
theorem cinCorrect_eq (ions : List RIon) (cols : List (String × List ℝ)) (hi : (ions.map (·.name)).Nodup)
    (hc : (cols.map (·.1)).Nodup) (hu : ∀ i ∈ ions, i.concUnits ∈ concMenu) (hn : ∀ i ∈ ions, i.name ∈ cols.map (·.1)) :
    ∃ corr, rCinCorrect ions cols = some corr ∧ corr.length = cols.length ∧
      ∀ k, ∀ h : k < cols.length, ∃ h' : k < corr.length, corr[k].1 = cols[k].1 ∧
        (∀ i ∈ ions, i.name = cols[k].1 → ∃ m, Spec.meq i.mw i.valence i.concUnits = some m ∧
          corr[k].2 = cols[k].2.map (· * m)) ∧
        ((∀ i ∈ ions, i.name ≠ cols[k].1) → corr[k].2 = cols[k].2) := by
  unfold rCinCorrect
  induction ions using List.reverseRecOn with
  | nil => exact ⟨cols, rfl, rfl, fun k h => ⟨h, rfl, by simp, fun _ => rfl⟩⟩
  | append_singleton ions i ih =>
    simp only [List.map_append, List.map_cons, List.map_nil, List.nodup_append, List.nodup_cons, List.mem_append,
      List.mem_singleton] at hi hu hn ⊢
    obtain ⟨corr, h1, h2, h3⟩ := ih hi.1 (fun i h => hu i (Or.inl h)) (fun i h => hn i (Or.inl h))
    obtain ⟨m, hm, hm'⟩ := meqMult_eq i (hu i (Or.inr rfl))
    obtain ⟨c, hc1, hc2⟩ := List.mem_map.1 (hn i (Or.inr rfl))
    have hlk : ∀ (l : List (String × List ℝ)), (l.map (·.1)).Nodup → ∀ c ∈ l, l.lookup c.1 = some c.2 := by
      intro l
      induction l with
      | nil => intro _ c h; cases h
      | cons a l ih =>
        intro hd c h
        simp only [List.map_cons, List.nodup_cons] at hd
        rw [List.lookup_cons]
        rcases List.mem_cons.1 h with rfl | h
        · simp
        · have : (c.1 == a.1) = false := by
            rw [beq_eq_false_iff_ne]
            intro e
            exact hd.1 (e ▸ List.mem_map_of_mem (f := (·.1)) h)
          rw [this]
          exact ih hd.2 c h
    have hv : cols.lookup i.name = some c.2 := by rw [← hc2]; exact hlk cols hc c hc1
    refine ⟨corr.map fun a => if a.1 = i.name then (a.1, c.2.map (· * m)) else a, ?_, by simpa using h2, ?_⟩
    · rw [List.foldlM_append, h1]
      simp [hm, hv]
    · intro k hk
      obtain ⟨h', e1, e2, e3⟩ := h3 k hk
      refine ⟨by simpa using h', ?_⟩
      rw [List.getElem_map]
      by_cases hki : corr[k].1 = i.name
      · rw [if_pos hki]
        have hck : cols[k].2 = c.2 := by
          have a1 := hlk cols hc cols[k] (List.getElem_mem hk)
          rw [← e1, hki, hv] at a1
          exact (Option.some.inj a1).symm
        refine ⟨e1, ?_, ?_⟩
        · rintro j (hj | rfl) hjn
          · exfalso
            refine hi.2.2 _ (List.mem_map_of_mem (f := (·.name)) hj) i.name rfl ?_
            exact hjn.trans (e1.symm.trans hki)
          · exact ⟨m, hm', by rw [hck]⟩
        · intro hno
          exact absurd (e1 ▸ hki).symm (hno i (Or.inr rfl))
      · rw [if_neg hki]
        refine ⟨e1, ?_, ?_⟩
        · rintro j (hj | rfl) hjn
          · exact e2 j hj hjn
          · exact absurd (e1.trans hjn.symm) hki
        · intro hno
          exact e3 fun j hj => hno j (Or.inl hj)

/-- The two tables name the same things. -/
def Spec.SameNames (ions : List RIon) (cols : List (String × List ℝ)) : Prop :=
  (∀ i ∈ ions, i.name ∈ cols.map (·.1)) ∧ ∀ c ∈ cols, c.1 ≠ "time" → c.1 ∈ ions.map (·.name)

theorem nameErrors_zero {ions : List RIon} {cols : List (String × List ℝ)} :
    rNameErrors ions cols = 0 ↔ Spec.SameNames ions cols := by
  unfold rNameErrors Spec.SameNames
  rw [Nat.add_eq_zero_iff, List.length_eq_zero_iff, List.length_eq_zero_iff, List.filter_eq_nil_iff, List.filter_eq_nil_iff]
  constructor
  · rintro ⟨h1, h2⟩
    refine ⟨fun i hi => by simpa using h1 i hi, fun c hc ht => ?_⟩
    have := h2 c hc
    simp only [Bool.and_eq_true, bne_iff_ne, ne_eq, ht, not_false_eq_true, true_and, Bool.not_eq_true,
      Bool.not_eq_false', List.contains_iff_mem] at this
    exact this
  · rintro ⟨h1, h2⟩
    refine ⟨fun i hi => by simpa using h1 i hi, fun c hc => ?_⟩
    simp only [Bool.and_eq_true, bne_iff_ne, ne_eq, Bool.not_eq_true', not_and]
    intro ht
    simp only [Bool.not_eq_false, List.contains_iff_mem]
    exact h2 c hc ht

/-- The claim in full: every ion is fed with the column of its name, in milliequivalents per litre. -/
def C144 : Prop := ∀ (ions : List RIon) (cols : List (String × List ℝ)), (ions.map (·.name)).Nodup → (cols.map (·.1)).Nodup →
  (∀ i ∈ ions, i.concUnits ∈ concMenu) → Spec.SameNames ions cols → ∀ k, ∀ h : k < ions.length, ∀ v,
    (ions[k].name, v) ∈ cols → ∃ m, Spec.meq ions[k].mw ions[k].valence ions[k].concUnits = some m ∧
      rInfluent ions cols k = some (v.map (· * m))

/-- C144, what happens: ion number `k` is fed with column number `k`, in the units of the ion that column is named after. -/
theorem c144_position (ions : List RIon) (cols : List (String × List ℝ)) (hi : (ions.map (·.name)).Nodup)
    (hc : (cols.map (·.1)).Nodup) (hu : ∀ i ∈ ions, i.concUnits ∈ concMenu) (hs : Spec.SameNames ions cols) (k : ℕ)
    (h : k < cols.length) (j : RIon) (hj : j ∈ ions) (hjn : j.name = cols[k].1) :
    ∃ m, Spec.meq j.mw j.valence j.concUnits = some m ∧ rInfluent ions cols k = some (cols[k].2.map (· * m)) := by
  obtain ⟨corr, h1, h2, h3⟩ := cinCorrect_eq ions cols hi hc hu hs.1
  obtain ⟨h', e1, e2, -⟩ := h3 k h
  obtain ⟨m, hm, e⟩ := e2 j hj hjn
  refine ⟨m, hm, ?_⟩
  unfold rInfluent
  rw [if_pos (nameErrors_zero.2 hs), h1]
  simp [List.getElem?_eq_getElem h', e]

/-- C144, when the columns are in the order of the ions. -/
theorem c144_partial (ions : List RIon) (cols : List (String × List ℝ)) (hi : (ions.map (·.name)).Nodup)
    (ho : cols.map (·.1) = ions.map (·.name)) (hu : ∀ i ∈ ions, i.concUnits ∈ concMenu) (k : ℕ) (h : k < ions.length)
    (v : List ℝ) (hv : (ions[k].name, v) ∈ cols) :
    ∃ m, Spec.meq ions[k].mw ions[k].valence ions[k].concUnits = some m ∧ rInfluent ions cols k = some (v.map (· * m)) := by
  have hl : cols.length = ions.length := by simpa using congrArg List.length ho
  have hs : Spec.SameNames ions cols := by
    refine ⟨fun i hi => ho ▸ List.mem_map_of_mem (f := (·.name)) hi, fun c hc _ => ho ▸ List.mem_map_of_mem (f := (·.1)) hc⟩
  have hk : k < cols.length := by omega
  have hn : ions[k].name = cols[k].1 := by
    have e : (ions.map (·.name))[k]'(by simpa using h) = (cols.map (·.1))[k]'(by simpa using hk) := by simp only [ho]
    simpa using e
  obtain ⟨m, hm, e⟩ := c144_position ions cols hi (ho ▸ hi) hu hs k hk ions[k] (List.getElem_mem h) hn
  have hv' : cols[k].2 = v := by
    have hc : (cols.map (·.1)).Nodup := ho ▸ hi
    obtain ⟨l, hl', e'⟩ := List.mem_iff_getElem.1 hv
    have : l = k := by
      have a : (cols.map (·.1))[l]'(by simpa using hl') = (cols.map (·.1))[k]'(by simpa using hk) := by
        simp [e', hn]
      exact (List.Nodup.getElem_inj_iff hc).1 a
    subst this
    rw [e']
  exact ⟨m, hm, hv' ▸ e⟩

/-- C144: names that do not match stop the run. -/
theorem c144_mismatch (ions : List RIon) (cols : List (String × List ℝ)) (hs : ¬ Spec.SameNames ions cols) (k : ℕ) :
    rInfluent ions cols k = none := by
  unfold rInfluent
  rw [if_neg (fun h => hs (nameErrors_zero.1 h))]

/-- Chloride and nitrate, with the columns of the influent the other way round. -/
def swapIons : List RIon := [⟨"CHLORIDE", 35, 1, "meq"⟩, ⟨"NITRATE", 62, 1, "meq"⟩]
def swapCols : List (String × List ℝ) := [("NITRATE", [1, 1]), ("CHLORIDE", [5, 5])]

theorem c144_false : ¬ C144 := by
  intro H
  have hu : ∀ i ∈ swapIons, i.concUnits ∈ concMenu := by
    intro i hi
    simp only [swapIons, List.mem_cons, List.not_mem_nil, or_false] at hi
    rcases hi with rfl | rfl <;> simp [concMenu]
  have hs : Spec.SameNames swapIons swapCols := by
    simp [Spec.SameNames, swapIons, swapCols]
  have hi : (swapIons.map (·.name)).Nodup := by simp [swapIons]
  have hc : (swapCols.map (·.1)).Nodup := by simp [swapCols]
  obtain ⟨m, hm, e⟩ := H swapIons swapCols hi hc hu hs 0 (by simp [swapIons]) [5, 5] (by simp [swapIons, swapCols])
  obtain ⟨m', hm', e'⟩ := c144_position swapIons swapCols hi hc hu hs 0 (by simp [swapCols]) ⟨"NITRATE", 62, 1, "meq"⟩
    (by simp [swapIons]) (by simp [swapCols])
  have h1 : m = 1 := (Option.some.inj (hm.symm.trans (if_pos rfl)))
  have h1' : m' = 1 := (Option.some.inj (hm'.symm.trans (if_pos rfl)))
  rw [e, h1, h1'] at e'
  simp [swapCols] at e'

example : swapCols.reverse.map (·.1) = swapIons.map (·.name) ∧ (swapIons.map (·.name)).Nodup := by
  simp [swapCols, swapIons]

/-! ### C145: concentrations there and back -/

/-- C145: concentrations go to milliequivalents for the solver, results come back to mg/L, and both the table and c/c0
are converted with the same factors, for the units the manual accepts. -/
theorem c145_back (i : RIon) (hu : i.concUnits ∈ concMenu) (hm : i.mw ≠ 0) (hv : i.valence ≠ 0) :
    ∃ a b, rMeqMult i = some a ∧ Spec.meq i.mw i.valence i.concUnits = some a ∧ rMglMult i = some b ∧ rCc0Mult i = some a ∧
      a * rOutMult i = b := by
  obtain ⟨a, ha, hs⟩ := meqMult_eq i hu
  have h2 := hu
  simp only [concMenu, List.mem_cons, List.not_mem_nil, or_false] at h2
  unfold rMglMult rCc0Mult rOutMult
  rcases h2 with h2 | h2 | h2 | h2
  · have : a = 1 := by
      rw [h2] at hs; exact (Option.some.inj (hs.symm.trans (if_pos rfl)))
    subst this
    exact ⟨1, _, ha, hs, if_pos (Or.inl h2), if_pos (Or.inl h2), one_mul _⟩
  all_goals
    have hn : ¬ (i.concUnits = "meq" ∨ i.concUnits = "meq/L") := by rw [h2]; decide
    have hn' : i.concUnits ≠ "meq" := by rw [h2]; decide
    unfold rMeqMult at ha
    rw [if_pos hn', h2] at ha
    obtain rfl := Option.some.inj ha
    refine ⟨_, _, by unfold rMeqMult; rw [if_pos hn', h2]; rfl, hs, by rw [if_neg hn, h2]; rfl, ?_, ?_⟩
    · rw [if_neg hn, h2]
      show some (_ * i.valence / i.mw) = some (_ / i.mw * i.valence)
      congr 1; ring
    · field_simp

/-- C145, outside the manual: `meq/L` is taken as milligrams on the way in and as milliequivalents everywhere else. -/
theorem c145_meqL (i : RIon) (hu : i.concUnits = "meq/L") (hm : i.mw ≠ 0) (hv : i.valence ≠ 0) :
    rMeqMult i = some (i.valence / i.mw) ∧ rCc0Mult i = some 1 ∧ rMglMult i = some (i.mw / i.valence) ∧
      i.valence / i.mw * rOutMult i = 1 := by
  refine ⟨?_, ?_, ?_, ?_⟩
  · unfold rMeqMult
    rw [if_pos (by rw [hu]; decide), hu]
    show some (1 / i.mw * i.valence) = _
    congr 1; ring
  · exact if_pos (Or.inr hu)
  · exact if_pos (Or.inr hu)
  · unfold rOutMult; field_simp

/-- C145: the c/c0 plot divides a curve by the first influent value it was computed from, whatever the order of the
columns. -/
theorem c145_cc0 (ions : List RIon) (cols : List (String × List ℝ)) (hi : (ions.map (·.name)).Nodup)
    (hc : (cols.map (·.1)).Nodup) (hu : ∀ i ∈ ions, i.concUnits ∈ concMenu) (hmv : ∀ i ∈ ions, i.mw ≠ 0 ∧ i.valence ≠ 0)
    (hs : Spec.SameNames ions cols) (ht : "time" ∉ cols.map (·.1)) (out : List (List ℝ)) (k : ℕ) (ys inf : List ℝ) (c : ℝ)
    (hy : out[k]? = some ys) (hk : rInfluent ions cols k = some inf) (hc0 : inf.head? = some c) :
    rCc0Iex ions cols out k = some (ys.map (· / c)) := by
  have hkl : k < cols.length := by
    obtain ⟨corr, h1, h2, -⟩ := cinCorrect_eq ions cols hi hc hu hs.1
    unfold rInfluent at hk
    rw [if_pos (nameErrors_zero.2 hs), h1] at hk
    simp only [Option.bind_eq_bind, Option.bind_some] at hk
    rcases hx : corr[k]? with _ | x
    · rw [hx] at hk; simp at hk
    · exact h2 ▸ (List.getElem?_eq_some_iff.1 hx).1
  have hct : cols[k].1 ≠ "time" := fun e => ht (e ▸ List.mem_map_of_mem (f := (·.1)) (List.getElem_mem hkl))
  have hfind : ∃ j, ions.find? (fun i => i.name = cols[k].1) = some j := by
    obtain ⟨j, hj, e⟩ := List.mem_map.1 (hs.2 cols[k] (List.getElem_mem hkl) hct)
    exact Option.isSome_iff_exists.1 (List.find?_isSome.2 ⟨j, hj, by simpa using e⟩)
  obtain ⟨j, hj⟩ := hfind
  have hjm := List.mem_of_find?_eq_some hj
  have hjn : j.name = cols[k].1 := by simpa using List.find?_some hj
  obtain ⟨m, hm, e⟩ := c144_position ions cols hi hc hu hs k hkl j hjm hjn
  obtain ⟨a, b, ha, has, hb, hcc, -⟩ := c145_back j (hu j hjm) (hmv j hjm).1 (hmv j hjm).2
  obtain rfl : m = a := Option.some.inj (hm.symm.trans has)
  have hinf : inf = cols[k].2.map (· * m) := Option.some.inj (hk.symm.trans e)
  unfold rCc0Iex
  rw [List.getElem?_eq_getElem hkl]
  simp only [Option.bind_eq_bind, Option.bind_some, hj, hcc, hy]
  rw [hinf, List.head?_map] at hc0
  rcases hh : cols[k].2.head? with _ | y
  · rw [hh] at hc0; simp at hc0
  · rw [hh] at hc0
    simp only [Option.map_some, Option.some.injEq] at hc0
    simp [hc0]

/-- Hypotheses of C145 are met by the two ions, columns in the wrong order included. -/
example : (∀ i ∈ swapIons, i.concUnits ∈ concMenu) ∧ (∀ i ∈ swapIons, i.mw ≠ 0 ∧ i.valence ≠ 0) ∧
    Spec.SameNames swapIons swapCols ∧ "time" ∉ swapCols.map (·.1) := by
  refine ⟨?_, ?_, ?_, ?_⟩
  · intro i hi
    simp only [swapIons, List.mem_cons, List.not_mem_nil, or_false] at hi
    rcases hi with rfl | rfl <;> simp [concMenu]
  · intro i hi
    simp only [swapIons, List.mem_cons, List.not_mem_nil, or_false] at hi
    rcases hi with rfl | rfl <;> norm_num
  · simp [Spec.SameNames, swapIons, swapCols]
  · simp [swapCols]

/-! ### C146: bicarbonate from alkalinity and pH -/

/-- Carbonate equilibrium of a water: concentrations in mol/L of carbonic acid, bicarbonate and carbonate, and the
alkalinity balance, with alkalinity in mg/L CaCO3 (50000 mg per equivalent). -/
structure Spec.Carbonate (pH alk h2co3 hco3 co3 : ℝ) : Prop where
  first : (10 : ℝ) ^ (-pH) * hco3 = (10 : ℝ) ^ (-6.352 : ℝ) * h2co3
  second : (10 : ℝ) ^ (-pH) * co3 = (10 : ℝ) ^ (-10.329 : ℝ) * hco3
  balance : alk / 50000 = hco3 + 2 * co3 + (10 : ℝ) ^ (pH - 14) - (10 : ℝ) ^ (-pH)

theorem rKW_div (pH : ℝ) : rKW / (10 : ℝ) ^ (-pH) = (10 : ℝ) ^ (pH - 14) := by
  unfold rKW
  rw [← Real.rpow_sub (by norm_num)]
  congr 1; ring

theorem c146_fractions {h : ℝ} (hh : 0 < h) :
    rAlpha0 h + rAlpha1 h + rAlpha2 h = 1 ∧ 0 < rAlpha0 h ∧ 0 < rAlpha1 h ∧ 0 < rAlpha2 h ∧
      h * rAlpha1 h = rK1 * rAlpha0 h ∧ h * rAlpha2 h = rK2 * rAlpha1 h := by
  have h1 : 0 < rK1 := by unfold rK1; positivity
  have h2 : 0 < rK2 := by unfold rK2; positivity
  have e0 : rAlpha0 h = h ^ 2 / (h ^ 2 + rK1 * h + rK1 * rK2) := by unfold rAlpha0; field_simp
  have e1 : rAlpha1 h = rK1 * h / (h ^ 2 + rK1 * h + rK1 * rK2) := by unfold rAlpha1; field_simp; ring
  have e2 : rAlpha2 h = rK1 * rK2 / (h ^ 2 + rK1 * h + rK1 * rK2) := by unfold rAlpha2; field_simp; ring
  rw [e0, e1, e2]
  refine ⟨by field_simp, by positivity, by positivity, by positivity, by field_simp, by field_simp⟩

/-- C146: the calculator returns the bicarbonate of the carbonate equilibrium at that pH and alkalinity, which is unique,
in mmol/L, mg C/L and mg HCO3/L. -/
theorem c146_equilibrium (pH alk a b c : ℝ) (h : Spec.Carbonate pH alk a b c) :
    rBicarb pH alk = if 0 ≤ b then some (1000 * b, 1000 * b * 12, 1000 * b * 61) else none := by
  have hh : 0 < (10 : ℝ) ^ (-pH) := by positivity
  obtain ⟨-, -, p1, p2, e1, e2⟩ := c146_fractions hh
  have hb : rAlpha1 ((10 : ℝ) ^ (-pH)) * (1000 * rTotCO3 pH alk) = 1000 * b := by
    have ht : alk / 50000 + (10 : ℝ) ^ (-pH) - rKW / (10 : ℝ) ^ (-pH) = b + 2 * c := by
      rw [rKW_div]; linarith [h.balance]
    have hc : c * (rAlpha1 ((10 : ℝ) ^ (-pH))) = b * rAlpha2 ((10 : ℝ) ^ (-pH)) := by
      have := h.second
      have e3 : (10 : ℝ) ^ (-pH) * (c * rAlpha1 ((10 : ℝ) ^ (-pH))) = (10 : ℝ) ^ (-pH) * (b * rAlpha2 ((10 : ℝ) ^ (-pH))) := by
        rw [← mul_assoc, this, mul_left_comm _ b, e2]; unfold rK2; ring
      exact mul_left_cancel₀ hh.ne' e3
    unfold rTotCO3
    simp only [ht]
    have hne : rAlpha1 ((10 : ℝ) ^ (-pH)) + 2 * rAlpha2 ((10 : ℝ) ^ (-pH)) ≠ 0 := by positivity
    field_simp
    linear_combination 2 * hc
  unfold rBicarb
  simp only [hb]
  by_cases h0 : 0 ≤ b
  · rw [if_pos h0, if_pos (by linarith)]
  · rw [if_neg h0, if_neg (by intro h; exact h0 (by linarith))]

/-- C146: the equilibrium exists, so the calculator is never undetermined, and it refuses exactly the alkalinities below the
one of pure water at that pH. -/
theorem c146_total (pH alk : ℝ) : ∃ a b c, Spec.Carbonate pH alk a b c ∧
    (0 ≤ b ↔ 50000 * ((10 : ℝ) ^ (pH - 14) - (10 : ℝ) ^ (-pH)) ≤ alk) := by
  have hh : 0 < (10 : ℝ) ^ (-pH) := by positivity
  obtain ⟨-, p0, p1, p2, e1, e2⟩ := c146_fractions hh
  refine ⟨rAlpha0 ((10 : ℝ) ^ (-pH)) * rTotCO3 pH alk, rAlpha1 ((10 : ℝ) ^ (-pH)) * rTotCO3 pH alk,
    rAlpha2 ((10 : ℝ) ^ (-pH)) * rTotCO3 pH alk, ⟨?_, ?_, ?_⟩, ?_⟩
  · rw [← mul_assoc, e1]; unfold rK1; ring
  · rw [← mul_assoc, e2]; unfold rK2; ring
  · unfold rTotCO3
    simp only [rKW_div]
    have : rAlpha1 ((10 : ℝ) ^ (-pH)) + 2 * rAlpha2 ((10 : ℝ) ^ (-pH)) ≠ 0 := by positivity
    field_simp
    ring
  · rw [mul_nonneg_iff_of_pos_left p1]
    unfold rTotCO3
    simp only [rKW_div]
    have hp : 0 < rAlpha1 ((10 : ℝ) ^ (-pH)) + 2 * rAlpha2 ((10 : ℝ) ^ (-pH)) := by positivity
    constructor
    · intro h
      rw [div_nonneg_iff] at h
      rcases h with h | h
      · linarith [h.1]
      · linarith [h.2]
    · intro h
      exact div_nonneg (by linarith) hp.le

/-! ### C147: estimate of the film coefficient -/

/-- Film coefficient by the correlation of Gnielinski, from the diffusivity of Hayduk and Laudie: diameter `d` (cm), superficial
velocity `v` (cm/s), porosity, density (g/mL) and viscosity (g/cm/s). -/
noncomputable def Spec.film (d v ebed rho mu V : ℝ) : ℝ :=
  let D := 13.26e-5 / ((100 * mu) ^ (1.14 : ℝ) * V ^ (0.589 : ℝ))
  let Re := rho * (v / ebed) * d / mu
  let Sc := mu / (rho * D)
  D / d * ((2 + 0.644 * Real.sqrt Re * Sc ^ (1 / 3 : ℝ)) * (2.5 - 1.5 * ebed))

/-- The claim in full: the estimate is the correlation for the beads and the velocity of the form. -/
def C147 : Prop := ∀ (h : RHyd) (rbv : ℝ) (ru : String) (temp V ebed l s : ℝ), 0 < V → Spec.lengthUnits.lookup ru = some l →
  Spec.speed h = some s →
  rFilm temp V rbv h.Vv ebed = Spec.film (2 * (rbv * l * 100)) (s * 100) ebed (rDensity temp) (rViscosity temp) V

theorem rFilm_eq (temp V rbv v ebed : ℝ) (hV : 0 < V) :
    rFilm temp V rbv v ebed = Spec.film (2 * rbv) v ebed (rDensity temp) (rViscosity temp) V := by
  have hmu : 0 < rViscosity temp := by unfold rViscosity; positivity
  unfold rFilm Spec.film
  have hD : 13.26e-5 * (rViscosity temp * 100) ^ (-1.14 : ℝ) * V ^ (-0.589 : ℝ) =
      13.26e-5 / ((100 * rViscosity temp) ^ (1.14 : ℝ) * V ^ (0.589 : ℝ)) := by
    rw [Real.rpow_neg (by positivity), Real.rpow_neg hV.le, mul_comm (rViscosity temp) 100]
    field_simp
  simp only [hD]
  generalize 13.26e-5 / ((100 * rViscosity temp) ^ (1.14 : ℝ) * V ^ (0.589 : ℝ)) = D
  rw [Real.sqrt_eq_rpow, div_div,
    show v / ebed * (2 * rbv) * (rDensity temp / rViscosity temp) = rDensity temp * (v / ebed) * (2 * rbv) / rViscosity temp by ring,
    show (1 : ℝ) + 1.5 * (1 - ebed) = 2.5 - 1.5 * ebed by ring]
  ring

/-- C147, when radius and velocity are entered in cm and cm/s. -/
theorem c147_partial (h : RHyd) (rbv temp V ebed : ℝ) (hV : 0 < V) (hl : h.linear = true) (hu : h.vu = "cm/s") :
    ∃ l s, Spec.lengthUnits.lookup "cm" = some l ∧ Spec.speed h = some s ∧
      rFilm temp V rbv h.Vv ebed = Spec.film (2 * (rbv * l * 100)) (s * 100) ebed (rDensity temp) (rViscosity temp) V := by
  refine ⟨1 / 100, h.Vv * (1 / 100), rfl, by rw [Spec.speed, if_pos hl, hu]; rfl, ?_⟩
  rw [rFilm_eq _ _ _ _ _ hV]
  congr 1 <;> ring

/-- C147, what happens: units are not looked at, and neither is a flow. The numbers are read as cm and cm/s. -/
theorem c147_units (temp V rbv v ebed : ℝ) (hV : 0 < V) :
    rFilm temp V rbv v ebed = Spec.film (2 * rbv) v ebed (rDensity temp) (rViscosity temp) V := rFilm_eq _ _ _ _ _ hV

/-- C147. The application estimates what the functions of the Python package do: `simple_Gnielinski` with the diffusivity of
`Hayduk_Laudie`, at every temperature, for every solute, bead, velocity and porosity. -/
theorem c147_python (temp V rbv v ebed : ℝ) :
    rFilm temp V rbv v ebed = (simpleGnielinski rbv v ebed temp (haydukLaudie V temp)).1 ∧
    rViscosity temp = waterVisc temp ∧ rDensity temp = waterDens temp := ⟨rfl, rfl, rfl⟩

/-- C147. So the water of the application thins with temperature and is densest near 3.6 °C. -/
theorem c147_water : (∀ s t, -273.15 < s → s < t → rViscosity t < rViscosity s) ∧
    ∃ T, 3.5 < T ∧ T < 3.7 ∧ ∀ t, rDensity t ≤ rDensity T := by
  refine ⟨fun s t => c120_viscosity.2 s t, ?_⟩
  obtain ⟨T, h1, h2, h3, h4⟩ := c120_densest
  refine ⟨T, h1, h2, fun t => ?_⟩
  rcases lt_trichotomy t T with h | h | h
  · exact (h3 t T h le_rfl).le
  · rw [h]
  · exact (h4 T t le_rfl h).le

theorem c147_false : ¬ C147 := by
  intro H
  have h := H ⟨true, 0, "cm/s", 0, "gpm", 1, "cm", 1, "cm"⟩ 1 "mm" 20 1 0.4 (1 / 1000) (0 * (1 / 100)) (by norm_num) rfl rfl
  rw [rFilm_eq _ _ _ _ _ (by norm_num)] at h
  have hmu : 0 < rViscosity 20 := by unfold rViscosity; positivity
  simp only [Spec.film] at h
  have hD : 0 < (13.26e-5 : ℝ) / ((100 * rViscosity 20) ^ (1.14 : ℝ) * 1 ^ (0.589 : ℝ)) := by positivity
  generalize (13.26e-5 : ℝ) / ((100 * rViscosity 20) ^ (1.14 : ℝ) * 1 ^ (0.589 : ℝ)) = D at h hD
  norm_num at h
  linarith

/-! ### C148: which plot a curve goes to -/

/-- Rows of the curves, one below the other, as `gather` stacks them. -/
def Spec.stack (curves : List (String × List ℝ)) : List (String × ℝ) := curves.flatMap fun c => c.2.map fun y => (c.1, y)

def Spec.isCounter (n : String) : Bool := n ∈ ["CHLORIDE", "SULFATE", "BICARBONATE", "NITRATE"]

/-- The claim in full: the four inorganic ions are in the counter-ion plot, all others in the other one. -/
def C148 : Prop := ∀ (curves cols : List (String × List ℝ)) (nt : ℕ), 0 < nt → (∀ c ∈ curves, c.2.length = nt) →
  (curves.map (·.1)).Nodup → (cols.map (·.1)).Perm (curves.map (·.1)) →
  rCounterRows (rCounterCount cols) nt (Spec.stack curves) =
    (Spec.stack (curves.filter fun c => Spec.isCounter c.1)).map some ∧
  rOtherRows (rCounterCount cols) nt (Spec.stack curves) =
    (Spec.stack (curves.filter fun c => !Spec.isCounter c.1)).map some

theorem stack_length (curves : List (String × List ℝ)) (nt : ℕ) (h : ∀ c ∈ curves, c.2.length = nt) :
    (Spec.stack curves).length = curves.length * nt := by
  unfold Spec.stack
  induction curves with
  | nil => simp
  | cons c cs ih =>
    rw [List.flatMap_cons, List.length_append, ih (fun c hc => h c (List.mem_cons_of_mem _ hc)), List.length_map,
      h c List.mem_cons_self, List.length_cons]
    ring

theorem stack_append (a b : List (String × List ℝ)) : Spec.stack (a ++ b) = Spec.stack a ++ Spec.stack b := by
  simp [Spec.stack]

/-- The count of the names found in the influent table is the number of curves of the four ions. -/
theorem counterCount_eq (curves cols : List (String × List ℝ)) (hn : (curves.map (·.1)).Nodup)
    (hp : (cols.map (·.1)).Perm (curves.map (·.1))) :
    rCounterCount cols = (curves.filter fun c => Spec.isCounter c.1).length := by
  have h1 : rCounterCount cols = ((curves.map (·.1)).filter Spec.isCounter).length := by
    unfold rCounterCount
    refine List.Perm.length_eq ?_
    rw [List.perm_ext_iff_of_nodup (List.Nodup.filter _ (by decide)) (List.Nodup.filter _ hn)]
    intro n
    rw [List.mem_filter, List.mem_filter, List.contains_iff_mem, hp.mem_iff]
    unfold Spec.isCounter rCounterList
    simp only [decide_eq_true_eq]
    exact and_comm
  rw [h1, List.filter_map, List.length_map]
  rfl

/-- C148, when the counter-ions come first in the ion list and are not alone. -/
theorem c148_partial (pre post cols : List (String × List ℝ)) (nt : ℕ) (hnt : 0 < nt)
    (hl : ∀ c ∈ pre ++ post, c.2.length = nt) (hn : ((pre ++ post).map (·.1)).Nodup)
    (hp : (cols.map (·.1)).Perm ((pre ++ post).map (·.1))) (h1 : ∀ c ∈ pre, Spec.isCounter c.1 = true)
    (h2 : ∀ c ∈ post, Spec.isCounter c.1 = false) (h3 : post ≠ []) :
    rCounterRows (rCounterCount cols) nt (Spec.stack (pre ++ post)) = (Spec.stack pre).map some ∧
    rOtherRows (rCounterCount cols) nt (Spec.stack (pre ++ post)) = (Spec.stack post).map some := by
  have hc : rCounterCount cols = pre.length := by
    rw [counterCount_eq _ _ hn hp, List.filter_append, List.filter_eq_self.2 (by simpa using h1),
      List.filter_eq_nil_iff.2 (by intro c hc; simp [h2 c hc]), List.append_nil]
  have hs : (Spec.stack pre).length = pre.length * nt := stack_length _ _ fun c hc => hl c (List.mem_append_left _ hc)
  have hs' : (Spec.stack post).length = post.length * nt := stack_length _ _ fun c hc => hl c (List.mem_append_right _ hc)
  have hpos : 0 < post.length * nt := Nat.mul_pos (List.length_pos_iff.2 h3) hnt
  rw [hc, stack_append]
  unfold rCounterRows rOtherRows
  rw [← hs, List.take_left, List.drop_left, if_pos]
  · exact ⟨rfl, rfl⟩
  · rw [List.length_append]; omega

/-- C148: unless all ions are counter-ions, every curve is in the table of one of the two plots, whole. (What the plots draw of their tables is C266.) -/
theorem c148_once (curves cols : List (String × List ℝ)) (nt : ℕ) (hnt : 0 < nt) (hl : ∀ c ∈ curves, c.2.length = nt)
    (hn : (curves.map (·.1)).Nodup) (hp : (cols.map (·.1)).Perm (curves.map (·.1)))
    (h : ∃ c ∈ curves, Spec.isCounter c.1 = false) :
    let n := rCounterCount cols
    rCounterRows n nt (Spec.stack curves) = (Spec.stack (curves.take n)).map some ∧
    rOtherRows n nt (Spec.stack curves) = (Spec.stack (curves.drop n)).map some ∧
    n = (curves.filter fun c => Spec.isCounter c.1).length := by
  intro n
  have hc : n = (curves.filter fun c => Spec.isCounter c.1).length := counterCount_eq _ _ hn hp
  have hlt : n < curves.length := by
    rw [hc]
    refine lt_of_le_of_ne (List.length_filter_le _ _) ?_
    intro e
    obtain ⟨c, hc, hf⟩ := h
    have := List.length_filter_eq_length_iff.1 e c hc
    rw [hf] at this; cases this
  have hs : (Spec.stack (curves.take n)).length = n * nt := by
    rw [stack_length _ nt fun c hc => hl c (List.mem_of_mem_take hc), List.length_take, min_eq_left hlt.le]
  have hd : Spec.stack curves = Spec.stack (curves.take n) ++ Spec.stack (curves.drop n) := by
    rw [← stack_append, List.take_append_drop]
  refine ⟨?_, ?_, hc⟩
  · unfold rCounterRows
    rw [hd, ← hs, List.take_left]
  · unfold rOtherRows
    rw [if_pos, hd, ← hs, List.drop_left]
    rw [stack_length _ nt hl]
    have := Nat.mul_le_mul_right nt hlt
    rw [Nat.succ_mul] at this
    omega

/-- C148: with counter-ions only, the other plot gets an empty row and the last row of the last curve. -/
theorem c148_all (curves cols : List (String × List ℝ)) (nt : ℕ) (hnt : 0 < nt) (hl : ∀ c ∈ curves, c.2.length = nt)
    (hn : (curves.map (·.1)).Nodup) (hp : (cols.map (·.1)).Perm (curves.map (·.1)))
    (h : ∀ c ∈ curves, Spec.isCounter c.1 = true) (hne : curves ≠ []) :
    rOtherRows (rCounterCount cols) nt (Spec.stack curves) = [none, (Spec.stack curves).getLast?] := by
  have hc : rCounterCount cols = curves.length := by
    rw [counterCount_eq _ _ hn hp, List.filter_eq_self.2 (by simpa using h)]
  have hs := stack_length curves nt hl
  have hpos : 0 < curves.length * nt := Nat.mul_pos (List.length_pos_iff.2 hne) hnt
  unfold rOtherRows
  rw [hc, if_neg (by omega), hs, show curves.length * nt + 2 - curves.length * nt = 2 by omega]
  show [_, _] = _
  rw [List.getLast?_eq_getElem?, hs]
  beta_reduce
  rw [Nat.sub_zero, List.getElem?_eq_none (by omega)]

theorem c148_false : ¬ C148 := by
  intro H
  obtain ⟨h, -⟩ := H [("PFOA", [1]), ("CHLORIDE", [2])] [("PFOA", [1]), ("CHLORIDE", [2])] 1 (by norm_num) (by simp) (by decide)
    (List.Perm.refl _)
  have e : rCounterCount [("PFOA", [(1 : ℝ)]), ("CHLORIDE", [2])] = 1 := by
    rw [counterCount_eq [("PFOA", [(1 : ℝ)]), ("CHLORIDE", [2])] _ (by decide) (List.Perm.refl _)]
    simp [List.filter, Spec.isCounter]
  rw [e] at h
  simp [rCounterRows, Spec.stack, List.filter, Spec.isCounter] at h

/-- Two counter-ions and PFOA, and an influent table in another order. -/
def plotPre : List (String × List ℝ) := [("CHLORIDE", [1, 2]), ("NITRATE", [3, 4])]
def plotPost : List (String × List ℝ) := [("PFOA", [5, 6])]
def plotCols : List (String × List ℝ) := [("PFOA", [0]), ("CHLORIDE", [0]), ("NITRATE", [0])]

example : (∀ c ∈ plotPre ++ plotPost, c.2.length = 2) ∧ ((plotPre ++ plotPost).map (·.1)).Nodup ∧
    (plotCols.map (·.1)).Perm ((plotPre ++ plotPost).map (·.1)) ∧ (∀ c ∈ plotPre, Spec.isCounter c.1 = true) ∧
    ∀ c ∈ plotPost, Spec.isCounter c.1 = false := by
  refine ⟨by simp [plotPre, plotPost], by simp [plotPre, plotPost], ?_, by simp [plotPre, Spec.isCounter],
    by simp [plotPost, Spec.isCounter]⟩
  show ["PFOA", "CHLORIDE", "NITRATE"].Perm ["CHLORIDE", "NITRATE", "PFOA"]
  decide

end WTM
