import Mathlib.Tactic.NormNum
import Mathlib.Tactic.Ring
import Mathlib.Tactic.FieldSimp
import Mathlib.Tactic.Positivity
import Mathlib.Tactic.Linarith
import Verif.Model.Units
import Verif.Spec.Units

set_option autoImplicit false
namespace WTM
open Spec (Kind)

theorem coefOf_isSome {t : Table} {u : String} :
    (coefOf t u).isSome ↔ u ∈ t.map Prod.fst := by
  induction t with
  | nil => simp [coefOf]
  | cons p t ih =>
    obtain ⟨n, c⟩ := p
    simp only [coefOf, List.map_cons, List.mem_cons]
    split
    · simp [*]
    · rename_i h; rw [ih]; constructor
      · exact Or.inr
      · rintro (rfl | h')
        · exact absurd rfl h
        · exact h'

theorem coefOf_mem {t : Table} {u : String} {c : ℝ} (h : coefOf t u = some c) : (u, c) ∈ t := by
  induction t with
  | nil => simp [coefOf] at h
  | cons p t ih =>
    obtain ⟨n, d⟩ := p
    simp only [coefOf] at h
    split at h
    · rename_i hn; subst hn; simp at h; subst h; simp
    · exact List.mem_cons_of_mem _ (ih h)

theorem table_accepted (q : Simple) : q.table.map Prod.fst = Spec.accepted q.kind := by
  cases q <;> rfl

theorem table_pos (q : Simple) (hq : q.Ok) : ∀ p ∈ q.table, 0 < p.2 := by
  cases q with
  | conc MW val =>
    obtain ⟨h1, h2⟩ := hq
    intro p hp
    simp only [Simple.table, concTable, List.mem_cons, List.not_mem_nil, or_false] at hp
    rcases hp with h | h | h | h | h | h | h | h <;> subst h <;> positivity
  | _ =>
    intro p hp
    simp only [Simple.table, lengthTable, volumeTable, timeTable, areaTable, weightTable,
      List.mem_cons, List.not_mem_nil, or_false] at hp
    casesm* _ ∨ _ <;> subst p <;> norm_num

theorem accepted_coef (q : Simple) (hq : q.Ok) {u : String} (h : u ∈ Spec.accepted q.kind) :
    ∃ c, coefOf q.table u = some c ∧ 0 < c := by
  rw [← table_accepted] at h
  obtain ⟨c, hc⟩ := Option.isSome_iff_exists.1 (coefOf_isSome.2 h)
  exact ⟨c, hc, table_pos q hq _ (coefOf_mem hc)⟩

theorem convUnits_some {t : Table} {a b : String} {ca cb : ℝ} (ans : List String)
    (ha : coefOf t a = some ca) (hb : coefOf t b = some cb) :
    convUnits t a b ans = .ok ⟨cb / ca, a, b, ans⟩ := by
  simp [convUnits, ha, hb]

theorem askUnit_ok {t : Table} {ans : List String} {u : String} {c : ℝ} {r : List String}
    (h : askUnit t ans = .ok (u, c, r)) :
    coefOf t u = some c ∧ u ∈ ans := by
  induction ans with
  | nil => simp [askUnit] at h
  | cons a as ih =>
    simp only [askUnit] at h
    split at h
    · rename_i c' hc; simp only [Except.ok.injEq, Prod.mk.injEq] at h
      obtain ⟨rfl, rfl, rfl⟩ := h; exact ⟨hc, by simp⟩
    · obtain ⟨h1, h2⟩ := ih h; exact ⟨h1, List.mem_cons_of_mem _ h2⟩

/-- Complete description of a successful `conv_units` call. -/
theorem convUnits_ok {t : Table} {a b : String} {ans : List String} {r : Conv}
    (h : convUnits t a b ans = .ok r) :
    ∃ cIn cOut, coefOf t r.uIn = some cIn ∧ coefOf t b = some cOut ∧ r.factor = cOut / cIn ∧
      r.uOut = b ∧ (r.uIn = a ∨ (coefOf t a = none ∧ r.uIn ∈ ans)) := by
  unfold convUnits at h
  cases ha : coefOf t a with
  | some c =>
    cases hb : coefOf t b with
    | none => simp [ha, hb] at h
    | some d =>
      simp only [ha, hb, Except.ok.injEq] at h; subst h
      exact ⟨c, d, ha, rfl, rfl, rfl, Or.inl rfl⟩
  | none =>
    cases hk : askUnit t ans with
    | error e => simp [ha, hk] at h
    | ok p =>
      obtain ⟨u, c, rest⟩ := p
      cases hb : coefOf t b with
      | none => simp [ha, hk, hb] at h
      | some d =>
        simp only [ha, hk, hb, Except.ok.injEq] at h; subst h
        obtain ⟨h1, h2⟩ := askUnit_ok hk
        exact ⟨c, d, h1, rfl, rfl, rfl, Or.inr ⟨rfl, h2⟩⟩


theorem splitUnit_slash {n d : String} (hn : '/' ∉ n.toList) (hd : '/' ∉ d.toList) :
    splitUnit (n ++ "/" ++ d) = some (n, d) := by
  have hl : (n ++ "/" ++ d).toList = n.toList ++ '/' :: d.toList := by simp
  have h1 : (n.toList ++ '/' :: d.toList).splitOn '/' = [n.toList, d.toList] := by
    rw [List.splitOn_append_cons_self_of_not_mem hn, List.splitOn_eq_singleton hd]
  unfold splitUnit
  rw [hl, h1]; simp

theorem accepted_noslash (k : Kind) : ∀ u ∈ Spec.accepted k, '/' ∉ u.toList := by
  cases k <;> decide

/-- Base-unit size of a kind: metre, cubic metre, day, square metre, kilogram. -/
def baseSize : Kind → ℚ
  | .time => 86400
  | _ => 1

theorem coefOf_cons_self (n : String) (c : ℝ) (t : Table) : coefOf ((n, c) :: t) n = some c := by
  simp [coefOf]

theorem coefOf_cons_ne {n u : String} (c : ℝ) (t : Table) (h : n ≠ u) :
    coefOf ((n, c) :: t) u = coefOf t u := by
  simp [coefOf, h]

theorem table_size (q : Simple) (hk : q.kind ≠ .conc) {u : String} {c : ℝ}
    (h : (u, c) ∈ q.table) :
    ∃ s : ℚ, Spec.size q.kind u = some s ∧ 0 < s ∧
      |c * (s : ℝ) / (baseSize q.kind : ℝ) - 1| ≤ 13/1000000 ∧
      (u ∈ Spec.metric q.kind → c * (s : ℝ) = (baseSize q.kind : ℝ)) := by
  cases q with
  | conc MW val => exact absurd rfl hk
  | _ =>
    simp only [Simple.table, lengthTable, volumeTable, timeTable, areaTable, weightTable,
      List.mem_cons, List.not_mem_nil, or_false, Prod.mk.injEq] at h
    casesm* _ ∨ _ <;> (obtain ⟨rfl, rfl⟩ := h
                       refine ⟨_, rfl, by norm_num, ?_, ?_⟩
                       · rw [abs_le]; norm_num [baseSize, Simple.kind]
                       · intro hm
                         first
                         | exact absurd hm (by decide)
                         | norm_num [baseSize, Simple.kind])

theorem alias_coef (q : Simple) {a a' : String} (h : (a, a') ∈ Spec.aliases q.kind) :
    coefOf q.table a = coefOf q.table a' ∧ (coefOf q.table a).isSome := by
  cases q <;> simp only [Simple.kind, Spec.aliases, List.mem_cons, List.not_mem_nil, or_false,
    Prod.mk.injEq] at h
  all_goals casesm* _ ∨ _
  all_goals (obtain ⟨rfl, rfl⟩ := h
             simp [coefOf, Simple.table, volumeTable, timeTable, weightTable])

theorem conc_size (MW val : ℝ) (h1 : 0 < MW) (h2 : 0 < val) {u : String} {c : ℝ}
    (h : (u, c) ∈ (Simple.conc MW val).table) :
    ∃ s : ℝ, Spec.meqSize MW val u = some s ∧ 0 < s ∧ c * s = 1 := by
  simp only [Simple.table, concTable,
      List.mem_cons, List.not_mem_nil, or_false, Prod.mk.injEq] at h
  casesm* _ ∨ _ <;> (obtain ⟨rfl, rfl⟩ := h
                     refine ⟨_, rfl, by positivity, ?_⟩
                     field_simp <;> norm_num)

theorem ratio_close {x y ε : ℝ} (hε : 0 ≤ ε) (hε' : ε < 1/100) (hx : |x - 1| ≤ ε) (hy : |y - 1| ≤ ε) :
    |x / y - 1| ≤ 3 * ε := by
  rw [abs_le] at *
  have hy0 : 0 < y := by linarith
  constructor
  · rw [le_sub_iff_add_le, le_div_iff₀ hy0]; nlinarith
  · rw [sub_le_iff_le_add, div_le_iff₀ hy0]; nlinarith

end WTM
