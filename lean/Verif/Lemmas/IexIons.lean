import Verif.Props.Units
import Verif.Model.IexLoad

/-! Closed form of `convDatabase`. -/
set_option autoImplicit false
namespace WTM

/-- Factor between two units for an ion, as a total function (only used for accepted units). -/
noncomputable def ionFac (i : Ion) (a b : String) : ℝ :=
  ((coefOf (concTable i.mw i.valence) b).getD 0) / ((coefOf (concTable i.mw i.valence) a).getD 0)

/-- Factor applied to the column called `n`. -/
noncomputable def facOf : List Ion → (Ion → String) → (Ion → String) → String → ℝ
  | [], _, _, _ => 1
  | i :: is, a, b, n => if i.name = n then ionFac i (a i) (b i) else facOf is a b n

/-- Multiply every column by a factor depending on its name. -/
noncomputable def scaleBy (g : String → ℝ) (cs : Columns) : Columns :=
  cs.map fun p => (p.1, p.2.map (fun x => g p.1 * x))

theorem scaleBy_scaleBy (g h : String → ℝ) (cs : Columns) :
    scaleBy g (scaleBy h cs) = scaleBy (fun n => g n * h n) cs := by
  simp [scaleBy, Function.comp_def, mul_assoc]

theorem scaleBy_one {g : String → ℝ} {cs : Columns} (h : ∀ p ∈ cs, g p.1 = 1) : scaleBy g cs = cs := by
  unfold scaleBy
  conv_rhs => rw [← List.map_id cs]
  apply List.map_congr_left
  intro p hp
  simp [h p hp]

theorem scaleBy_congr {g h : String → ℝ} {cs : Columns} (e : ∀ n, g n = h n) :
    scaleBy g cs = scaleBy h cs := by
  have : g = h := funext e
  rw [this]

theorem column_scaleBy (g : String → ℝ) (cs : Columns) (n : String) :
    column (scaleBy g cs) n = (column cs n).map (fun l => l.map (fun x => g n * x)) := by
  induction cs with
  | nil => rfl
  | cons p cs ih =>
    unfold column scaleBy at ih ⊢
    simp only [List.map_cons, List.find?_cons]
    by_cases h : p.1 = n
    · simp [h]
    · simp only [h, decide_false]; exact ih

/-- An ion with positive molecular weight and valence. -/
def Ion.Ok (i : Ion) : Prop := 0 < i.mw ∧ 0 < i.valence

theorem ionFac_conv {i : Ion} (hi : i.Ok) {a b : String} (ha : a ∈ Spec.accepted .conc)
    (hb : b ∈ Spec.accepted .conc) (ans : List String) :
    (Simple.conc i.mw i.valence).conv a b ans = .ok ⟨ionFac i a b, a, b, ans⟩ ∧
      0 < ionFac i a b := by
  obtain ⟨c, h1, p1⟩ := accepted_coef (.conc i.mw i.valence) hi ha
  obtain ⟨d, h2, p2⟩ := accepted_coef (.conc i.mw i.valence) hi hb
  have h1' : coefOf (concTable i.mw i.valence) a = some c := h1
  have h2' : coefOf (concTable i.mw i.valence) b = some d := h2
  refine ⟨?_, ?_⟩
  · rw [Simple.conv, convUnits_some ans h1 h2, ionFac, h1', h2']; rfl
  · rw [ionFac, h1', h2']; exact div_pos p2 p1

theorem ionFac_mul {i : Ion} (hi : i.Ok) {a b c : String} (ha : a ∈ Spec.accepted .conc)
    (hb : b ∈ Spec.accepted .conc) (hc : c ∈ Spec.accepted .conc) :
    ionFac i b c * ionFac i a b = ionFac i a c := by
  obtain ⟨x, h1, p1⟩ := accepted_coef (.conc i.mw i.valence) hi ha
  obtain ⟨y, h2, p2⟩ := accepted_coef (.conc i.mw i.valence) hi hb
  obtain ⟨z, h3, p3⟩ := accepted_coef (.conc i.mw i.valence) hi hc
  have h1' : coefOf (concTable i.mw i.valence) a = some x := h1
  have h2' : coefOf (concTable i.mw i.valence) b = some y := h2
  have h3' : coefOf (concTable i.mw i.valence) c = some z := h3
  simp only [ionFac, h1', h2', h3', Option.getD_some]
  field_simp

theorem ionFac_self {i : Ion} (hi : i.Ok) {a : String} (ha : a ∈ Spec.accepted .conc) :
    ionFac i a a = 1 := by
  obtain ⟨x, h1, p1⟩ := accepted_coef (.conc i.mw i.valence) hi ha
  have h1' : coefOf (concTable i.mw i.valence) a = some x := h1
  simp only [ionFac, h1', Option.getD_some]
  field_simp

theorem convColumn_eq {i : Ion} (hi : i.Ok) {a b : String} (ha : a ∈ Spec.accepted .conc)
    (hb : b ∈ Spec.accepted .conc) {cs : Columns} (hc : (column cs i.name).isSome) :
    convColumn i a b cs = .ok (scaleBy (fun n => if i.name = n then ionFac i a b else 1) cs) := by
  obtain ⟨l, hl⟩ := Option.isSome_iff_exists.1 hc
  unfold convColumn
  rw [(ionFac_conv hi ha hb []).1]
  simp only [hl, Except.ok.injEq, scaleBy]
  apply List.map_congr_left
  intro p _
  by_cases h : p.1 = i.name
  · simp [h]
  · simp [h, Ne.symm h]

theorem facOf_not_mem {ions : List Ion} {a b : Ion → String} {n : String}
    (h : n ∉ ions.map Ion.name) : facOf ions a b n = 1 := by
  induction ions with
  | nil => rfl
  | cons i is ih =>
    simp only [List.map_cons, List.mem_cons, not_or] at h
    simp only [facOf, Ne.symm h.1, if_false, ih h.2]

theorem facOf_mem {ions : List Ion} {a b : Ion → String} (hnd : (ions.map Ion.name).Nodup) {i : Ion}
    (hi : i ∈ ions) : facOf ions a b i.name = ionFac i (a i) (b i) := by
  induction ions with
  | nil => cases hi
  | cons j is ih =>
    simp only [List.map_cons, List.nodup_cons] at hnd
    simp only [facOf]
    rcases List.mem_cons.1 hi with rfl | hi
    · simp
    · rw [if_neg, ih hnd.2 hi]
      intro h; exact hnd.1 (h ▸ List.mem_map_of_mem hi)

theorem convDatabase_eq {ions : List Ion} (hok : ∀ i ∈ ions, i.Ok) (hnd : (ions.map Ion.name).Nodup)
    {a b : Ion → String} (ha : ∀ i ∈ ions, a i ∈ Spec.accepted .conc)
    (hb : ∀ i ∈ ions, b i ∈ Spec.accepted .conc) {cs : Columns}
    (hc : ∀ i ∈ ions, (column cs i.name).isSome) :
    convDatabase ions a b cs = .ok (scaleBy (facOf ions a b) cs) := by
  induction ions generalizing cs with
  | nil => simp only [convDatabase, facOf]; rw [scaleBy_one (fun _ _ => rfl)]
  | cons i is ih =>
    simp only [List.map_cons, List.nodup_cons] at hnd
    simp only [convDatabase, convColumn_eq (hok i (by simp)) (ha i (by simp)) (hb i (by simp))
      (hc i (by simp))]
    rw [ih (fun j hj => hok j (List.mem_cons_of_mem _ hj)) hnd.2
      (fun j hj => ha j (List.mem_cons_of_mem _ hj)) (fun j hj => hb j (List.mem_cons_of_mem _ hj)) ?_]
    · rw [scaleBy_scaleBy]
      congr 1
      apply scaleBy_congr
      intro n
      by_cases h : i.name = n
      · subst h; simp [facOf, facOf_not_mem hnd.1]
      · simp [facOf, h]
    · intro j hj
      rw [column_scaleBy]
      have := hc j (List.mem_cons_of_mem _ hj)
      cases h : column cs j.name <;> simp_all

end WTM
