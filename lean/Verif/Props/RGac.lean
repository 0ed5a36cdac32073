import Mathlib.Data.Fin.Tuple.Basic
import Mathlib.Logic.Equiv.Fin.Basic
import Mathlib.Tactic
import Verif.Model.RGac
import Verif.Props.RWeb

/-! C168 to C175: the server of the carbon column web application. -/
set_option autoImplicit false
namespace WTM

/-! ### Grids -/

theorem grid_eq {α : Type} {a b : ℕ} (g : Fin a → Fin b → α) :
    ((List.finRange a).flatMap fun i => (List.finRange b).map (g i)) = List.ofFn fun k : Fin (a * b) => g k.divNat k.modNat := by
  rw [List.ofFn_mul, List.flatMap_def, ← List.ofFn_eq_map]
  congr 1
  congr 1
  funext i
  rw [← List.ofFn_eq_map]
  congr 1
  funext j
  have h1 : (⟨(i : ℕ) * b + j, by calc
      (i : ℕ) * b + j < (i + 1) * b := by rw [Nat.add_mul, Nat.one_mul]; exact Nat.add_lt_add_left j.2 _
      _ ≤ _ := Nat.mul_le_mul_right _ i.2⟩ : Fin (a * b)).divNat = i := by
    apply Fin.ext
    show ((i : ℕ) * b + j) / b = i
    rw [Nat.add_comm, Nat.add_mul_div_right _ _ (lt_of_le_of_lt (Nat.zero_le _) j.2), Nat.div_eq_of_lt j.2, Nat.zero_add]
  have h2 : (⟨(i : ℕ) * b + j, by calc
      (i : ℕ) * b + j < (i + 1) * b := by rw [Nat.add_mul, Nat.one_mul]; exact Nat.add_lt_add_left j.2 _
      _ ≤ _ := Nat.mul_le_mul_right _ i.2⟩ : Fin (a * b)).modNat = j := by
    apply Fin.ext
    show ((i : ℕ) * b + j) % b = j
    rw [Nat.mul_add_mod_self_right, Nat.mod_eq_of_lt j.2]
  rw [h1, h2]

/-- The entry of a grid at a position. -/
theorem grid_get {α : Type} {a b : ℕ} (g : Fin a → Fin b → α) {k : ℕ} (h : k < a * b) :
    ((List.finRange a).flatMap fun i => (List.finRange b).map (g i))[k]? =
      some (g ⟨k / b, Nat.div_lt_of_lt_mul (Nat.mul_comm a b ▸ h)⟩
        ⟨k % b, Nat.mod_lt _ (Nat.pos_of_ne_zero fun e => by simp [e] at h)⟩) := by
  rw [grid_eq, List.getElem?_ofFn, dif_pos h]
  rfl

theorem grid_length {α : Type} {a b : ℕ} (g : Fin a → Fin b → α) :
    ((List.finRange a).flatMap fun i => (List.finRange b).map (g i)).length = a * b := by
  rw [grid_eq, List.length_ofFn]

/-! ### C168 -/

/-- The points `rows` are the measurements `v` of the compounds `name` at the times `t`, each divided by the first influent concentration
`c0` of its compound, under the name of its compound; and no measurement is left out. -/
def Spec.RelPoints {n m : ℕ} (t : Fin n → ℝ) (name : Fin m → String) (sfx : String) (v : Fin m → Fin n → Option ℝ)
    (c0 : Fin m → Option ℝ) (rows : List (ℝ × String × Option ℝ)) : Prop :=
  (∀ r ∈ rows, ∃ j i, r = (t i, name j ++ sfx, (v j i).bind fun x => (c0 j).map fun c => x / c)) ∧
  ∀ j i, (t i, name j ++ sfx, (v j i).bind fun x => (c0 j).map fun c => x / c) ∈ rows

/-- C168. With "c/c0" chosen, the measured points on the plot are the measurements over the first influent concentration of the same
compound. The two tables have the same compounds in the same order. -/
def C168 : Prop := ∀ (n n' m : ℕ) (t : Fin n → ℝ) (t' : Fin n' → ℝ) (name : Fin m → String) (v : Fin m → Fin n → Option ℝ)
  (v' : Fin m → Fin n' → Option ℝ) (h : 0 < n), 1 < n' → Function.Injective name →
  ∃ rows, rEffCc0 ⟨n, m, t, name, v⟩ ⟨n', m, t', name, v'⟩ h = some rows ∧
    Spec.RelPoints t' name "_effluent" v' (fun j => v j ⟨0, h⟩) rows

/-- The long table of relative concentrations by compound and time. -/
noncomputable def relAt {n m : ℕ} (v : Fin m → Fin n → Option ℝ) (c0 : Fin m → Option ℝ) (j : Fin m) (i : Fin n) : Option ℝ :=
  (v j i).bind fun x => (c0 j).map fun c => x / c

theorem div_lt' {k a b : ℕ} (h : k < a * b) : k / b < a := Nat.div_lt_of_lt_mul (Nat.mul_comm a b ▸ h)
theorem mod_lt' {k a b : ℕ} (h : k < a * b) : k % b < b := Nat.mod_lt _ (Nat.pos_of_ne_zero fun e => by simp [e] at h)

/-- C168, exactly: point `k` has the time of row `k mod n` and the name of compound `k / n`, but the value of compound `k mod m` at time
`k / m`. -/
theorem c168_rows {n n' m : ℕ} (t : Fin n → ℝ) (t' : Fin n' → ℝ) (name : Fin m → String) (v : Fin m → Fin n → Option ℝ)
    (v' : Fin m → Fin n' → Option ℝ) (h : 0 < n) (hn : 1 < n') :
    ∃ rows, rEffCc0 ⟨n, m, t, name, v⟩ ⟨n', m, t', name, v'⟩ h = some rows ∧ rows.length = m * n' ∧
      ∀ k (hk : k < m * n'), rows[k]? = some (t' ⟨k % n', mod_lt' hk⟩, name ⟨k / n', div_lt' hk⟩ ++ "_effluent",
        relAt v' (fun j => v j ⟨0, h⟩) ⟨k % m, mod_lt' (Nat.mul_comm m n' ▸ hk)⟩ ⟨k / m, div_lt' (Nat.mul_comm m n' ▸ hk)⟩) := by
  have hl : (RFrame.gather ⟨n', m, t', fun j => name j ++ "_" ++ "effluent", v'⟩).length = m * n' := grid_length _
  have hl2 : (RFrame.longer ⟨n', m, t', name, relAt v' fun j => v j ⟨0, h⟩⟩).length = n' * m := grid_length _
  refine ⟨List.zipWith (fun r w => (r.1, r.2.1, w)) (RFrame.gather ⟨n', m, t', fun j => name j ++ "_" ++ "effluent", v'⟩)
    ((RFrame.longer ⟨n', m, t', name, relAt v' fun j => v j ⟨0, h⟩⟩).map (·.2.2)), ?_, ?_, ?_⟩
  · unfold rEffCc0 rPointsCc0
    rw [if_pos hn, dif_pos rfl]
    show rSetConc _ _ = _
    unfold rSetConc
    rw [if_pos]
    · rfl
    · rw [List.length_map]
      exact hl.trans ((Nat.mul_comm _ _).trans hl2.symm)
  · rw [List.length_zipWith, List.length_map, hl, hl2, Nat.mul_comm n' m, Nat.min_self]
  · intro k hk
    have hk' : k < n' * m := Nat.mul_comm m n' ▸ hk
    rw [List.getElem?_zipWith, List.getElem?_map]
    rw [show (RFrame.gather ⟨n', m, t', fun j => name j ++ "_" ++ "effluent", v'⟩)[k]? = _ from grid_get _ hk,
      show (RFrame.longer ⟨n', m, t', name, relAt v' fun j => v j ⟨0, h⟩⟩)[k]? = _ from grid_get _ hk']
    simp only [Option.map_some, String.append_assoc]
    rfl

/-- C168, as far as it holds: for one compound. Missing: with more compounds the values go to points of other compounds and times
(`c168_rows`). -/
theorem c168_partial {n n' : ℕ} (t : Fin n → ℝ) (t' : Fin n' → ℝ) (name : Fin 1 → String) (v : Fin 1 → Fin n → Option ℝ)
    (v' : Fin 1 → Fin n' → Option ℝ) (h : 0 < n) (hn : 1 < n') :
    ∃ rows, rEffCc0 ⟨n, 1, t, name, v⟩ ⟨n', 1, t', name, v'⟩ h = some rows ∧
      Spec.RelPoints t' name "_effluent" v' (fun j => v j ⟨0, h⟩) rows := by
  obtain ⟨rows, hr, hl, hk⟩ := c168_rows t t' name v v' h hn
  have key : ∀ k (hk : k < n'), rows[k]? = some (t' ⟨k, hk⟩, name 0 ++ "_effluent", relAt v' (fun j => v j ⟨0, h⟩) 0 ⟨k, hk⟩) := by
    intro k hk'
    rw [hk k (by omega)]
    simp only [Nat.mod_eq_of_lt hk', Nat.div_eq_of_lt hk', Nat.mod_one, Nat.div_one]
    rfl
  refine ⟨rows, hr, ?_, ?_⟩
  · intro r hm
    obtain ⟨k, hk1, hk2⟩ := List.mem_iff_getElem.1 hm
    have hk' : k < n' := by omega
    have := key k hk'
    rw [List.getElem?_eq_getElem hk1, hk2] at this
    exact ⟨0, ⟨k, hk'⟩, Option.some.inj this⟩
  · intro j i
    rw [Subsingleton.elim j 0]
    exact List.mem_of_getElem? (key i i.2)

/-- C168: with two compounds or more, the second point, which is of the first compound and the second time, has the value of the second
compound at the first time. -/
theorem c168_wrong {n n' m : ℕ} (t : Fin n → ℝ) (t' : Fin n' → ℝ) (name : Fin m → String) (v : Fin m → Fin n → Option ℝ)
    (v' : Fin m → Fin n' → Option ℝ) (h : 0 < n) (hn : 1 < n') (hm : 1 < m) :
    ∃ rows, rEffCc0 ⟨n, m, t, name, v⟩ ⟨n', m, t', name, v'⟩ h = some rows ∧
      rows[1]? = some (t' ⟨1, hn⟩, name ⟨0, by omega⟩ ++ "_effluent", relAt v' (fun j => v j ⟨0, h⟩) ⟨1, hm⟩ ⟨0, by omega⟩) := by
  obtain ⟨rows, hr, -, hk⟩ := c168_rows t t' name v v' h hn
  refine ⟨rows, hr, ?_⟩
  rw [hk 1 (by nlinarith)]
  simp only [Nat.mod_eq_of_lt hn, Nat.div_eq_of_lt hn, Nat.mod_eq_of_lt hm, Nat.div_eq_of_lt hm]

/-- C168 is false: two compounds in the influent at 1, the first not breaking through at two times, the second at once. -/
theorem c168_false : ¬ C168 := by
  intro H
  have hinj : Function.Injective (fun j : Fin 2 => if j = 0 then "A" else "B") := by decide
  obtain ⟨rows, hr, hp, -⟩ := H 1 2 2 (fun _ => 0) (fun i => i.val) (fun j => if j = 0 then "A" else "B") (fun _ _ => some 1)
    (fun j _ => some (j.val : ℝ)) one_pos one_lt_two hinj
  obtain ⟨rows', hr', hw⟩ := c168_wrong (n := 1) (n' := 2) (m := 2) (fun _ => 0) (fun i => i.val)
    (fun j => if j = 0 then "A" else "B") (fun _ _ => some 1) (fun j _ => some (j.val : ℝ)) one_pos one_lt_two one_lt_two
  obtain rfl : rows = rows' := Option.some.inj (hr.symm.trans hr')
  obtain ⟨j, i, e⟩ := hp _ (List.mem_of_getElem? hw)
  simp only [relAt, Prod.mk.injEq] at e
  obtain ⟨-, e2, e3⟩ := e
  have hj : j = 0 := by
    by_contra hj
    simp [hj] at e2
  subst hj
  simp at e3

/-- C168. The influent points have the same defect: the table of the influent takes the place of both. -/
theorem c168_influent {n m : ℕ} (t : Fin n → ℝ) (name : Fin m → String) (v : Fin m → Fin n → Option ℝ) (h : 0 < n) (hn : 1 < n)
    (hm : 1 < m) : ∃ rows, rInfCc0 ⟨n, m, t, name, v⟩ h = some rows ∧
      rows[1]? = some (t ⟨1, hn⟩, name ⟨0, by omega⟩ ++ "_influent", relAt v (fun j => v j ⟨0, h⟩) ⟨1, hm⟩ ⟨0, h⟩) := by
  have hl : (RFrame.gather ⟨n, m, t, fun j => name j ++ "_" ++ "influent", v⟩).length = m * n := grid_length _
  have hl2 : (RFrame.longer ⟨n, m, t, name, relAt v fun j => v j ⟨0, h⟩⟩).length = n * m := grid_length _
  refine ⟨List.zipWith (fun r w => (r.1, r.2.1, w)) (RFrame.gather ⟨n, m, t, fun j => name j ++ "_" ++ "influent", v⟩)
    ((RFrame.longer ⟨n, m, t, name, relAt v fun j => v j ⟨0, h⟩⟩).map (·.2.2)), ?_, ?_⟩
  · unfold rInfCc0 rPointsCc0
    rw [if_pos hn, dif_pos rfl]
    show rSetConc _ _ = _
    unfold rSetConc
    rw [if_pos]
    · rfl
    · rw [List.length_map]
      exact hl.trans ((Nat.mul_comm _ _).trans hl2.symm)
  · have hk : 1 < m * n := by nlinarith
    rw [List.getElem?_zipWith, List.getElem?_map]
    rw [show (RFrame.gather ⟨n, m, t, fun j => name j ++ "_" ++ "influent", v⟩)[1]? = _ from grid_get _ hk,
      show (RFrame.longer ⟨n, m, t, name, relAt v fun j => v j ⟨0, h⟩⟩)[1]? = _ from grid_get _ (Nat.mul_comm m n ▸ hk)]
    simp only [Option.map_some, String.append_assoc, Nat.mod_eq_of_lt hn, Nat.div_eq_of_lt hn, Nat.mod_eq_of_lt hm,
      Nat.div_eq_of_lt hm]
    rfl

/-- C168. The computed curves are right, for any number of compounds: both long tables go row by row. -/
theorem c168_curves {n n' m : ℕ} (t : Fin n → ℝ) (t' : Fin n' → ℝ) (name : Fin m → String) (v : Fin m → Fin n → Option ℝ)
    (v' : Fin m → Fin n' → Option ℝ) (h : 0 < n) (hn : 1 < n') :
    ∃ rows, rCurveCc0 ⟨n, m, t, name, v⟩ ⟨n', m, t', name, v'⟩ h = some rows ∧
      Spec.RelPoints t' name "" v' (fun j => v j ⟨0, h⟩) rows := by
  have hz : ∀ l : List RLong, List.zipWith (fun r w => (r.1, r.2.1, w)) l (l.map (·.2.2)) = l := by
    intro l; induction l with
    | nil => rfl
    | cons a l ih => rw [List.map_cons, List.zipWith_cons_cons, ih]
  have he : List.zipWith (fun (r : RLong) (w : Option ℝ) => (r.1, r.2.1, w)) (RFrame.longer ⟨n', m, t', name, v'⟩)
      ((RFrame.longer ⟨n', m, t', name, relAt v' fun j => v j ⟨0, h⟩⟩).map (·.2.2)) =
      RFrame.longer ⟨n', m, t', name, relAt v' fun j => v j ⟨0, h⟩⟩ := by
    conv_rhs => rw [← hz (RFrame.longer ⟨n', m, t', name, relAt v' fun j => v j ⟨0, h⟩⟩)]
    apply List.ext_getElem?
    intro k
    rw [List.getElem?_zipWith, List.getElem?_zipWith, List.getElem?_map]
    by_cases hk : k < n' * m
    · rw [show (RFrame.longer ⟨n', m, t', name, v'⟩)[k]? = _ from grid_get _ hk,
        show (RFrame.longer ⟨n', m, t', name, relAt v' fun j => v j ⟨0, h⟩⟩)[k]? = _ from grid_get _ hk]
      rfl
    · rw [List.getElem?_eq_none (l := RFrame.longer ⟨n', m, t', name, v'⟩) (by rw [show (RFrame.longer ⟨n', m, t', name, v'⟩).length = _ from grid_length _]; exact not_lt.1 hk),
        List.getElem?_eq_none (l := RFrame.longer ⟨n', m, t', name, relAt v' fun j => v j ⟨0, h⟩⟩) (by rw [show (RFrame.longer _).length = _ from grid_length _]; exact not_lt.1 hk)]
  refine ⟨RFrame.longer ⟨n', m, t', name, relAt v' fun j => v j ⟨0, h⟩⟩, ?_, ?_, ?_⟩
  · unfold rCurveCc0 rPointsCc0
    rw [if_pos hn, dif_pos rfl]
    show rSetConc _ _ = _
    unfold rSetConc
    rw [if_pos]
    · exact congrArg some he
    · rw [List.length_map]
      exact (grid_length _).trans (grid_length _).symm
  · intro r hr
    obtain ⟨i, -, hr⟩ := List.mem_flatMap.1 hr
    obtain ⟨j, -, rfl⟩ := List.mem_map.1 hr
    exact ⟨j, i, by rw [String.append_empty]; rfl⟩
  · intro j i
    rw [String.append_empty]
    exact List.mem_flatMap.2 ⟨i, List.mem_finRange _, List.mem_map.2 ⟨j, List.mem_finRange _, rfl⟩⟩

/-- C168. In units of concentration the points of the effluent are the measurements, for any number of compounds. -/
theorem c168_conc (c : ℝ) (eff : RFrame) (hn : 1 < eff.n) (r : ℝ × String × Option ℝ) :
    r ∈ rEffConc c eff ↔ ∃ j i, r = (eff.time i, eff.name j ++ "_effluent", (eff.val j i).map (· * c)) := by
  unfold rEffConc
  rw [if_pos hn]
  constructor
  · intro h
    obtain ⟨q, hq, rfl⟩ := List.mem_map.1 h
    obtain ⟨j, -, hq⟩ := List.mem_flatMap.1 hq
    obtain ⟨i, -, rfl⟩ := List.mem_map.1 hq
    exact ⟨j, i, by simp [RFrame.suffix, String.append_assoc]⟩
  · rintro ⟨j, i, rfl⟩
    exact List.mem_map.2 ⟨(eff.time i, eff.name j ++ "_" ++ "effluent", eff.val j i), List.mem_flatMap.2
      ⟨j, List.mem_finRange _, List.mem_map.2 ⟨i, List.mem_finRange _, rfl⟩⟩, by simp [String.append_assoc]⟩

/-- C168. A single measurement of the effluent is not drawn at all. -/
theorem c168_single (inf eff : RFrame) (h : 0 < inf.n) (c : ℝ) (hn : eff.n = 1) : rEffCc0 inf eff h = some [] ∧ rEffConc c eff = [] := by
  unfold rEffCc0 rEffConc
  rw [if_neg (by omega), if_neg (by omega)]
  exact ⟨rfl, rfl⟩

/-! ### C169 -/

theorem unique_foldl_mem {α : Type} [DecidableEq α] (acc l : List α) (h : ∀ x ∈ l, x ∈ acc) :
    l.foldl (fun acc x => if x ∈ acc then acc else acc ++ [x]) acc = acc := by
  induction l with
  | nil => rfl
  | cons a l ih =>
    rw [List.foldl_cons, if_pos (h a (List.mem_cons_self ..))]
    exact ih fun x hx => h x (List.mem_cons_of_mem _ hx)

theorem unique_foldl_new {α : Type} [DecidableEq α] (acc l : List α) (h : ∀ x ∈ l, x ∉ acc) (hl : l.Nodup) :
    l.foldl (fun acc x => if x ∈ acc then acc else acc ++ [x]) acc = acc ++ l := by
  induction l generalizing acc with
  | nil => simp
  | cons a l ih =>
    rw [List.foldl_cons, if_neg (h a (List.mem_cons_self ..)), ih, List.append_assoc]
    · rfl
    · intro x hx hmem
      rcases List.mem_append.1 hmem with hm | hm
      · exact h x (List.mem_cons_of_mem _ hx) hm
      · rw [List.mem_singleton.1 hm] at hx
        exact (List.nodup_cons.1 hl).1 hx
    · exact (List.nodup_cons.1 hl).2

/-- Blocks of one repeated element each. -/
theorem unique_replicate {α β : Type} (l : List β) (f : β → α) (hf : (l.map f).Nodup) {m : ℕ} (hm : 0 < m) :
    rUnique (l.flatMap fun b => List.replicate m (f b)) = l.map f := by
  classical
  have key : ∀ (l : List β) (acc : List α), (∀ x ∈ l.map f, x ∉ acc) → (l.map f).Nodup →
      (l.flatMap fun b => List.replicate m (f b)).foldl (fun acc x => if x ∈ acc then acc else acc ++ [x]) acc = acc ++ l.map f := by
    intro l
    induction l with
    | nil => intro acc _ _; simp
    | cons b l ih =>
      intro acc h hn
      obtain ⟨k, rfl⟩ : ∃ k, m = k + 1 := ⟨m - 1, by omega⟩
      rw [List.flatMap_cons, List.foldl_append, List.replicate_succ, List.foldl_cons, if_neg (h (f b) (by simp)),
        unique_foldl_mem _ (List.replicate k (f b)) (fun x hx => by simp [List.eq_of_mem_replicate hx]), ih]
      · simp
      · intro x hx hmem
        rcases List.mem_append.1 hmem with hm | hm
        · exact h x (by simpa using Or.inr (List.mem_map.1 hx)) hm
        · rw [List.mem_singleton.1 hm] at hx
          exact (List.nodup_cons.1 hn).1 hx
      · exact (List.nodup_cons.1 hn).2
  have := key l [] (by simp) hf
  rw [List.nil_append] at this
  unfold rUnique
  convert this using 1

/-- The same block over and over. -/
theorem unique_blocks {α β : Type} (l : List β) (hl : l ≠ []) (b : List α) (hb : b.Nodup) : rUnique (l.flatMap fun _ => b) = b := by
  classical
  obtain ⟨x, l, rfl⟩ := List.exists_cons_of_ne_nil hl
  unfold rUnique
  rw [List.flatMap_cons, List.foldl_append]
  have h1 := unique_foldl_new [] b (by simp) hb
  rw [List.nil_append] at h1
  have h2 := unique_foldl_mem b (l.flatMap fun _ => b) (by simp)
  calc _ = (l.flatMap fun _ => b).foldl (fun acc x => if x ∈ acc then acc else acc ++ [x]) b := by
        congr 1
    _ = b := h2

theorem filter_only {α : Type} {l : List α} {a : α} (hn : l.Nodup) (ha : a ∈ l) (p : α → Bool) (hp : ∀ x ∈ l, p x = true ↔ x = a) :
    l.filter p = [a] := by
  classical
  rw [show l.filter p = l.filter (fun x => decide (x = a)) from List.filter_congr fun x hx => by
    rw [Bool.eq_iff_iff, hp x hx, decide_eq_true_iff], List.filter_eq, List.count_eq_one_of_mem hn ha]
  rfl

theorem mapM_of_some {α β : Type} {f : α → Option β} {g : α → β} : ∀ {l : List α}, (∀ a ∈ l, f a = some (g a)) →
    l.mapM f = some (l.map g)
  | [], _ => rfl
  | a :: l, h => by
    rw [List.mapM_cons, h a (List.mem_cons_self ..), mapM_of_some fun b hb => h b (List.mem_cons_of_mem _ hb)]
    rfl

theorem dataPrep_filter (ty ty' : String) (rows : List RLong) :
    (rDataPrep ty rows).filter (fun r => decide (r.type = ty')) = if ty = ty' then rDataPrep ty rows else [] := by
  by_cases h : ty = ty'
  · rw [if_pos h, List.filter_eq_self]
    intro r hr
    obtain ⟨q, -, rfl⟩ := List.mem_map.1 hr
    simpa using h
  · rw [if_neg h, List.filter_eq_nil_iff]
    intro r hr
    obtain ⟨q, -, rfl⟩ := List.mem_map.1 hr
    simpa using h

/-- Spreading the long table of a frame gives the frame back. -/
theorem widen_frame (ty : String) (f : RFrame) (dat : List RDataRow)
    (hd : dat.filter (fun r => decide (r.type = ty)) = rDataPrep ty f.longer) (hn : 0 < f.n) (hm : 0 < f.m)
    (ht : Function.Injective f.time) (hc : Function.Injective f.name) : rWiden ty dat = some f.wide := by
  classical
  have hrows : rDataPrep ty f.longer = (List.finRange f.n).flatMap fun i => (List.finRange f.m).map fun j =>
      (⟨ty, f.time i, f.val j i, f.name j⟩ : RDataRow) := by
    unfold rDataPrep RFrame.longer
    rw [List.map_flatMap]
    simp only [List.map_map]
    rfl
  have hprod : rDataPrep ty f.longer = ((List.finRange f.n) ×ˢ (List.finRange f.m)).map fun p =>
      (⟨ty, f.time p.1, f.val p.2 p.1, f.name p.2⟩ : RDataRow) := by
    rw [hrows]
    show _ = (List.product _ _).map _
    unfold List.product
    rw [List.map_flatMap]
    simp only [List.map_map]
    rfl
  have htimes : rUnique ((rDataPrep ty f.longer).map (·.time)) = (List.finRange f.n).map f.time := by
    rw [hrows, List.map_flatMap]
    simp only [List.map_map]
    rw [← unique_replicate (List.finRange f.n) f.time ((List.nodup_finRange _).map ht) hm]
    congr 2
    funext i
    rw [show ((fun r : RDataRow => r.time) ∘ fun j => (⟨ty, f.time i, f.val j i, f.name j⟩ : RDataRow)) = fun _ => f.time i from rfl,
      List.map_const', List.length_finRange]
  have hnames : rUnique ((rDataPrep ty f.longer).map (·.compound)) = (List.finRange f.m).map f.name := by
    rw [hrows, List.map_flatMap]
    simp only [List.map_map]
    exact unique_blocks (List.finRange f.n) (by rw [ne_eq, List.finRange_eq_nil_iff]; omega) _ ((List.nodup_finRange _).map hc)
  have hcell : ∀ i j, rCell (rDataPrep ty f.longer) (f.time i) (f.name j) = some (f.val j i) := by
    intro i j
    have : (rDataPrep ty f.longer).filter (fun r => decide (r.time = f.time i ∧ r.compound = f.name j)) =
        [⟨ty, f.time i, f.val j i, f.name j⟩] := by
      rw [hprod, List.filter_map, filter_only (a := (i, j)) ((List.nodup_finRange _).product (List.nodup_finRange _))
        (List.mem_product.2 ⟨List.mem_finRange _, List.mem_finRange _⟩)]
      · rfl
      · rintro ⟨i', j'⟩ -
        simp only [Function.comp, decide_eq_true_iff, ht.eq_iff, hc.eq_iff, Prod.mk.injEq]
    unfold rCell
    rw [this]
  unfold rWiden
  have hd' : (dat.filter fun r => r.type = ty) = rDataPrep ty f.longer := hd
  simp only [hd', htimes, hnames]
  rw [mapM_of_some (g := fun c => (c, (List.finRange f.n).map fun i => ((rCell (rDataPrep ty f.longer) (f.time i) c).getD none)))]
  · unfold RFrame.wide
    simp only [Option.map_some, List.map_map, Option.some.injEq, RWide.mk.injEq]
    refine ⟨(List.ofFn_eq_map).symm, ?_⟩
    apply List.map_congr_left
    intro j _
    simp only [Function.comp, hcell, Option.getD_some, List.ofFn_eq_map]
  · intro c hcm
    obtain ⟨j, -, rfl⟩ := List.mem_map.1 hcm
    rw [mapM_of_some (g := fun t => ((rCell (rDataPrep ty f.longer) t (f.name j)).getD none))]
    · simp [List.map_map, Function.comp_def]
    · intro t htm
      obtain ⟨i, -, rfl⟩ := List.mem_map.1 htm
      rw [hcell]; rfl

/-- C169. Uploading a saved workbook brings back both tables of measurements, in the order they had: whenever each has a row and a
compound, its times differ and its compounds differ. -/
theorem c169_roundtrip (inf eff : RFrame) (hi : 0 < inf.n ∧ 0 < inf.m) (he : 0 < eff.n ∧ 0 < eff.m)
    (ht : Function.Injective inf.time) (hc : Function.Injective inf.name) (ht' : Function.Injective eff.time)
    (hc' : Function.Injective eff.name) :
    rWiden "influent" (rDataSave inf eff) = some inf.wide ∧ rWiden "effluent" (rDataSave inf eff) = some eff.wide := by
  refine ⟨widen_frame _ _ _ ?_ hi.1 hi.2 ht hc, widen_frame _ _ _ ?_ he.1 he.2 ht' hc'⟩
  · unfold rDataSave
    rw [List.filter_append, dataPrep_filter, dataPrep_filter, if_pos rfl, if_neg (by decide), List.append_nil]
  · unfold rDataSave
    rw [List.filter_append, dataPrep_filter, dataPrep_filter, if_neg (by decide), if_pos rfl, List.nil_append]

/-- Two compounds measured twice, with one measurement missing. -/
def exFrame : RFrame := ⟨2, 2, fun i => i.val * 10, fun j => if j = 0 then "PFOA" else "PFOS", fun j i => if j = 0 ∧ i = 1 then none else some 5⟩

example : 0 < exFrame.n ∧ 0 < exFrame.m ∧ Function.Injective exFrame.time ∧ Function.Injective exFrame.name := by
  refine ⟨by decide, by decide, ?_, by decide⟩
  intro a b h
  have h : (a.val : ℝ) * 10 = b.val * 10 := h
  have : (a.val : ℝ) = b.val := by linarith
  exact Fin.ext (by exact_mod_cast this)

theorem mem_unique {α : Type} {l : List α} {x : α} (h : x ∈ l) : x ∈ rUnique l := by
  classical
  have key : ∀ (l acc : List α), (x ∈ acc ∨ x ∈ l) → x ∈ l.foldl (fun acc x => if x ∈ acc then acc else acc ++ [x]) acc := by
    intro l
    induction l with
    | nil => intro acc h; simpa using h
    | cons a l ih =>
      intro acc h
      rw [List.foldl_cons]
      apply ih
      by_cases ha : a ∈ acc
      · rw [if_pos ha]
        rcases h with h | h
        · exact .inl h
        · rcases List.mem_cons.1 h with rfl | h
          · exact .inl ha
          · exact .inr h
      · rw [if_neg ha]
        rcases h with h | h
        · exact .inl (List.mem_append_left _ h)
        · rcases List.mem_cons.1 h with rfl | h
          · exact .inl (by simp)
          · exact .inr h
  have := key l [] (.inr h)
  unfold rUnique
  convert this using 1

theorem mapM_none {α β : Type} {f : α → Option β} : ∀ {l : List α} {a : α}, a ∈ l → f a = none → l.mapM f = none
  | b :: l, a, h, e => by
    rw [List.mapM_cons]
    rcases List.mem_cons.1 h with rfl | h
    · rw [e]; rfl
    · rw [mapM_none h e]
      cases f b <;> rfl

/-- C169. A time written twice does not survive: the sheet cannot be spread, and the upload keeps the previous tables. -/
theorem c169_twice (f : RFrame) (ty : String) (i i' : Fin f.n) (j : Fin f.m) (h : i ≠ i') (e : f.time i = f.time i')
    (dat : List RDataRow) (hd : dat.filter (fun r => decide (r.type = ty)) = rDataPrep ty f.longer) : rWiden ty dat = none := by
  classical
  have hprod : rDataPrep ty f.longer = ((List.finRange f.n) ×ˢ (List.finRange f.m)).map fun p =>
      (⟨ty, f.time p.1, f.val p.2 p.1, f.name p.2⟩ : RDataRow) := by
    show _ = (List.product _ _).map _
    unfold List.product rDataPrep RFrame.longer
    rw [List.map_flatMap, List.map_flatMap]
    simp only [List.map_map]
    rfl
  have hmem : (⟨ty, f.time i, f.val j i, f.name j⟩ : RDataRow) ∈ rDataPrep ty f.longer := by
    rw [hprod]
    exact List.mem_map.2 ⟨(i, j), List.mem_product.2 ⟨List.mem_finRange _, List.mem_finRange _⟩, rfl⟩
  have hlen : 2 ≤ ((rDataPrep ty f.longer).filter fun r => decide (r.time = f.time i ∧ r.compound = f.name j)).length := by
    rw [hprod, List.filter_map, List.length_map]
    have hsub : [(i, j), (i', j)] ⊆ ((List.finRange f.n) ×ˢ (List.finRange f.m)).filter
        ((fun r : RDataRow => decide (r.time = f.time i ∧ r.compound = f.name j)) ∘ fun p : Fin f.n × Fin f.m =>
          (⟨ty, f.time p.1, f.val p.2 p.1, f.name p.2⟩ : RDataRow)) := by
      intro p hp
      rw [List.mem_filter]
      refine ⟨List.mem_product.2 ⟨List.mem_finRange _, List.mem_finRange _⟩, ?_⟩
      simp only [List.mem_cons, List.not_mem_nil, or_false] at hp
      rcases hp with rfl | rfl <;> simp [e]
    exact (List.subperm_of_subset (by simp [h]) hsub).length_le
  have hcell : rCell (rDataPrep ty f.longer) (f.time i) (f.name j) = none := by
    unfold rCell
    have h2 : ∀ l : List RDataRow, 2 ≤ l.length → (match l with | [] => some none | [r] => some r.conc | _ => none) = (none : Option (Option ℝ)) := by
      intro l hl
      match l, hl with
      | _ :: _ :: _, _ => rfl
    apply h2
    convert hlen using 2
  unfold rWiden
  have hd' : (dat.filter fun r => r.type = ty) = rDataPrep ty f.longer := hd
  simp only [hd']
  rw [mapM_none (a := f.name j) (mem_unique (List.mem_map.2 ⟨_, hmem, rfl⟩))]
  · rfl
  · rw [mapM_none (a := f.time i) (mem_unique (List.mem_map.2 ⟨_, hmem, rfl⟩)) hcell]
    rfl

/-! ### C170 -/

/-- C170. Uploading a saved workbook brings back the column: the model gets the same table. -/
def C170 : Prop := ∀ f f₀ : RGacForm, f.pdu = "g/ml" → f.adu = "g/ml" → rColumnAll (rSpecsLoad (rSpecsSave f) f₀) = rColumnAll f

theorem specs_roundtrip (f f₀ : RGacForm) : rSpecsLoad (rSpecsSave f) f₀ =
    { f with linear := false, Vv := f₀.Vv, vu := f₀.vu, pdu := "g/ml", adu := "g/ml", nr := 7, nz := 12, wfoul := f₀.wfoul,
             cfoul := f₀.cfoul } := rfl

theorem rGacFlow_volumetric {h g : RHyd} (hl : h.linear = false) (gl : g.linear = false) (e : h.Fv = g.Fv) (e2 : h.fu = g.fu) :
    rGacFlow h = rGacFlow g := by
  unfold rGacFlow
  simp only [hl, gl, e, e2, Bool.false_eq_true, if_false]

/-- C170, as far as it holds: for a column given by its flow rate. Missing: the velocity is not saved. -/
theorem c170_partial (f f₀ : RGacForm) (hp : f.pdu = "g/ml") (ha : f.adu = "g/ml") (hl : f.linear = false) :
    rColumnAll (rSpecsLoad (rSpecsSave f) f₀) = rColumnAll f := by
  rw [specs_roundtrip]
  unfold rColumnAll rColumnData
  simp only [hp, ha]
  rw [rGacFlow_volumetric (h := { f.toRHyd with linear := false, Vv := f₀.Vv, vu := f₀.vu }) (g := f.toRHyd) rfl hl rfl rfl]

/-- C170. For a column given by its velocity the upload selects the flow rate, with the number that stood in the disabled field; the rest
is as it was. -/
theorem c170_velocity (f f₀ : RGacForm) (hp : f.pdu = "g/ml") (ha : f.adu = "g/ml") (c : RColumnAll)
    (hc : rColumnAll f = some c) (q : ℝ) (hq : rFlowGac.lookup f.fu = some q) :
    (rSpecsLoad (rSpecsSave f) f₀).linear = false ∧
    rColumnAll (rSpecsLoad (rSpecsSave f) f₀) = some { c with flrt := f.Fv * q } := by
  refine ⟨rfl, ?_⟩
  rw [specs_roundtrip]
  unfold rColumnAll rColumnData at hc ⊢
  simp only [hp, ha] at hc ⊢
  cases h1 : rLength.lookup f.pu with
  | none => rw [h1] at hc; cases hc
  | some p =>
  cases h2 : rLength.lookup f.lu with
  | none => rw [h1, h2] at hc; cases hc
  | some l =>
  cases h3 : rWeightGac.lookup f.wu with
  | none => rw [h1, h2, h3] at hc; cases hc
  | some w =>
  cases h4 : rGacFlow f.toRHyd with
  | none => rw [h1, h2, h3, h4] at hc; cases hc
  | some fl =>
  cases h5 : rLength.lookup f.du with
  | none => rw [h1, h2, h3, h4, h5] at hc; cases hc
  | some d =>
  rw [h1, h2, h3, h4, h5] at hc
  have h6 : rGacFlow { f.toRHyd with linear := false, Vv := f₀.Vv, vu := f₀.vu } = some (f.Fv * q) := by
    unfold rGacFlow
    simp [hq]
  simp only at h6 ⊢
  rw [h6]
  obtain rfl := Option.some.inj hc
  rfl

/-- C170. A sheet with the row `v` gives a column by its velocity, one without by its flow rate, with the number and unit of that row. -/
theorem c170_sheet (s : RSpecs) (f : RGacForm) (x : ℝ) (u : String) :
    (s.lookup "v" = some (.num x, some u) →
      ((rSpecsLoad s f).linear, (rSpecsLoad s f).Vv, (rSpecsLoad s f).vu) = (true, x, u)) ∧
    (s.lookup "v" = none → s.lookup "flowrate" = some (.num x, some u) →
      ((rSpecsLoad s f).linear, (rSpecsLoad s f).Fv, (rSpecsLoad s f).fu) = (false, x, u)) := by
  constructor
  · intro h
    simp [rSpecsLoad, rSpecNum, rSpecUnit, h]
  · intro h h'
    simp [rSpecsLoad, rSpecNum, rSpecUnit, h, h']

/-- C170. What the sheet does not mention stays as it is in the user interface. -/
theorem c170_missing (f : RGacForm) (hn : f.nr = 7) (hz : f.nz = 12) : rSpecsLoad [] f = f := by
  obtain ⟨⟨⟨_, _, _, _, _, _, _, _, _⟩, _, _, _, _, _, _⟩, _, _, _, _, _, _, _, _, _, _, _⟩ := f
  obtain rfl : _ = 7 := hn
  obtain rfl : _ = 12 := hz
  rfl

/-- A pilot column, 2 cm by 1 cm, by its velocity; `ad` and `pd` are the densities and `w` the weight in g. -/
noncomputable def exGac (lin : Bool) (pd ad w : ℝ) : RGacForm :=
  ⟨⟨⟨lin, 1, "cm/s", 0, "mL/min", 2, "cm", 1, "cm"⟩, 0.05, "cm", w, "g", "ng", "days"⟩, 0.6, 5, pd, "g/ml", ad, "g/ml", 1, 7, 12,
    "Organic Free", "PFAS"⟩

theorem exGac_column (lin : Bool) (pd ad w : ℝ) : ∃ fl, rGacFlow (exGac lin pd ad w).toRHyd = some fl ∧
    rColumnAll (exGac lin pd ad w) = some ⟨⟨0.05 * 1, 1 * 1, w * 1, fl, 2 * 1, 0.001, 0.001, 1440⟩, 0.6, 5, pd * 1, ad * 1, 1, "ng"⟩ := by
  cases lin
  · refine ⟨_, rfl, ?_⟩
    show some _ = some _
    simp [exGac]
  · refine ⟨_, rfl, ?_⟩
    show some _ = some _
    simp [exGac]

/-- C170 is false. -/
theorem c170_false : ¬ C170 := by
  intro H
  have h := H (exGac true 0.8 0.6 1) (exGac true 0.8 0.6 1) rfl rfl
  obtain ⟨fl, h1, h2⟩ := exGac_column true 0.8 0.6 1
  obtain ⟨-, h3⟩ := c170_velocity (exGac true 0.8 0.6 1) (exGac true 0.8 0.6 1) rfl rfl _ h2 1 rfl
  rw [h, h2] at h3
  have h4 : fl = (exGac true 0.8 0.6 1).Fv * 1 := congrArg (fun c : RColumnAll => c.flrt) (Option.some.inj h3)
  have h5 : Real.pi / 4 * (2 * 1) ^ 2 * 1 * 1 * rMin2sec = fl := Option.some.inj h1
  have h6 : fl = 0 * 1 := h4
  rw [h6] at h5
  have := Real.pi_pos
  norm_num [rMin2sec] at h5

/-! ### C171 -/

/-- C171. A run that passes the check is of a column in which water has room: the void fraction the model computes is between 0 and 1. -/
def C171 : Prop := ∀ (f : RGacForm) (c : RColumnAll) (dw vw : ℝ), rColumnAll f = some c → 0 < f.wv → 0 < f.Dv → 0 < f.Lv → 0 < f.pd →
  rGacPasses f = some true → 0 < (derive dw vw c.geom).ebed ∧ (derive dw vw c.geom).ebed < 1

theorem lookup_pos {l : List (String × ℝ)} (hl : ∀ p ∈ l, 0 < p.2) {u : String} {x : ℝ} (h : l.lookup u = some x) : 0 < x := by
  induction l with
  | nil => cases h
  | cons p l ih =>
    rw [List.lookup_cons] at h
    by_cases e : u == p.1
    · rw [e] at h
      obtain rfl := Option.some.inj h
      exact hl p (List.mem_cons_self ..)
    · rw [Bool.not_eq_true] at e
      rw [e] at h
      exact ih (fun q hq => hl q (List.mem_cons_of_mem _ hq)) h

theorem rLength_pos {u : String} {x : ℝ} (h : rLength.lookup u = some x) : 0 < x := by
  refine lookup_pos ?_ h
  norm_num [rLength, rM2cm, rMm2cm, rIn2cm, rFt2cm]

theorem rWeightGac_pos {u : String} {x : ℝ} (h : rWeightGac.lookup u = some x) : 0 < x := by
  refine lookup_pos ?_ h
  norm_num [rWeightGac]

theorem rDensConv_one {u : String} {x : ℝ} (h : rDensConv.lookup u = some x) : x = 1 := by
  by_cases e : u == "g/ml"
  · simp only [rDensConv, List.lookup_cons, e, Option.some.injEq] at h
    exact h.symm
  · rw [Bool.not_eq_true] at e
    simp [rDensConv, List.lookup_cons, e] at h

/-- What the table and the check say, in numbers. -/
theorem gac_unfold {f : RGacForm} {c : RColumnAll} (hc : rColumnAll f = some c) (b : Bool) (hp : rGacPasses f = some b) :
    ∃ w d l, 0 < w ∧ 0 < d ∧ 0 < l ∧ c.wt = f.wv * w ∧ c.diam = f.Dv * d ∧ c.L = f.Lv * l ∧ c.rhop = f.pd ∧ c.rhof = f.ad ∧
      (b = true ↔ ¬ f.ad < f.wv * w / (Real.pi * (f.Dv * d / 2) ^ 2 * (f.Lv * l)) ∧ f.wfoul ∈ rWaters ∧ f.cfoul ∈ rChems) := by
  unfold rColumnAll rColumnData at hc
  unfold rGacPasses at hp
  cases h1 : rLength.lookup f.pu with
  | none => rw [h1] at hc; cases hc
  | some p =>
  cases h2 : rLength.lookup f.lu with
  | none => rw [h1, h2] at hc; cases hc
  | some l =>
  cases h3 : rWeightGac.lookup f.wu with
  | none => rw [h1, h2, h3] at hc; cases hc
  | some w =>
  cases h4 : rGacFlow f.toRHyd with
  | none => rw [h1, h2, h3, h4] at hc; cases hc
  | some fl =>
  cases h5 : rLength.lookup f.du with
  | none => rw [h1, h2, h3, h4, h5] at hc; cases hc
  | some d =>
  cases h6 : rDensConv.lookup f.pdu with
  | none => rw [h1, h2, h3, h4, h5, h6] at hc; cases hc
  | some x =>
  cases h7 : rDensConv.lookup f.adu with
  | none => rw [h1, h2, h3, h4, h5, h6, h7] at hc; cases hc
  | some y =>
  rw [h1, h2, h3, h4, h5, h6, h7] at hc
  rw [h2, h3, h5, h7] at hp
  obtain rfl := rDensConv_one h6
  obtain rfl := rDensConv_one h7
  obtain rfl := Option.some.inj hc
  have hp := Option.some.inj hp
  refine ⟨w, d, l, rWeightGac_pos h3, rLength_pos h5, rLength_pos h2, rfl, rfl, rfl, mul_one _, mul_one _, ?_⟩
  rw [← hp]
  simp [and_assoc]

theorem gac_ebed {f : RGacForm} {c : RColumnAll} {w d l : ℝ} (h1 : c.wt = f.wv * w) (h2 : c.diam = f.Dv * d) (h3 : c.L = f.Lv * l)
    (h4 : c.rhop = f.pd) (dw vw : ℝ) : (derive dw vw c.geom).ebed =
      1 - f.wv * w / (Real.pi * (f.Dv * d / 2) ^ 2 * (f.Lv * l)) / f.pd := by
  show 1 - c.wt / (Real.pi * c.diam ^ 2 / 4 * c.L * c.rhop) = _
  rw [h1, h2, h3, h4, div_div]
  congr 2
  ring

/-- C171, as far as it holds: when the apparent density is below the particle density. Missing: the check compares the density of the bed
with `apparent density`, the model divides by `particle density`. -/
theorem c171_partial (f : RGacForm) (c : RColumnAll) (dw vw : ℝ) (hc : rColumnAll f = some c) (hw : 0 < f.wv) (hD : 0 < f.Dv)
    (hL : 0 < f.Lv) (hd : f.ad < f.pd) (hpd : 0 < f.pd) (hp : rGacPasses f = some true) :
    0 < (derive dw vw c.geom).ebed ∧ (derive dw vw c.geom).ebed < 1 := by
  obtain ⟨w, d, l, w0, d0, l0, e1, e2, e3, e4, -, hb⟩ := gac_unfold hc _ hp
  obtain ⟨hlt, -, -⟩ := hb.1 rfl
  rw [gac_ebed e1 e2 e3 e4 dw vw]
  have hpos : 0 < f.wv * w / (Real.pi * (f.Dv * d / 2) ^ 2 * (f.Lv * l)) := by
    have := Real.pi_pos
    positivity
  set x := f.wv * w / (Real.pi * (f.Dv * d / 2) ^ 2 * (f.Lv * l))
  have h1 : x / f.pd < 1 := by rw [div_lt_one hpd]; linarith [not_lt.1 hlt]
  have h2 : 0 < x / f.pd := div_pos hpos hpd
  exact ⟨by linarith, by linarith⟩

/-- C171. A bed that is denser than its grains is turned down whenever the two densities are in that order, and so are types of water and
compounds that are not on the lists. -/
theorem c171_rejects (f : RGacForm) (c : RColumnAll) (dw vw : ℝ) (hc : rColumnAll f = some c) (hpd : 0 < f.pd) (hd : f.ad < f.pd)
    (b : Bool) (hp : rGacPasses f = some b)
    (h : (derive dw vw c.geom).ebed ≤ 0 ∨ f.wfoul ∉ rWaters ∨ f.cfoul ∉ rChems) : b = false := by
  obtain ⟨w, d, l, w0, d0, l0, e1, e2, e3, e4, -, hb⟩ := gac_unfold hc _ hp
  by_contra hne
  obtain ⟨hlt, h1, h2⟩ := hb.1 (by simpa using hne)
  rcases h with h | h | h
  · rw [gac_ebed e1 e2 e3 e4 dw vw] at h
    have : f.wv * w / (Real.pi * (f.Dv * d / 2) ^ 2 * (f.Lv * l)) / f.pd < 1 := by
      rw [div_lt_one hpd]; linarith [not_lt.1 hlt]
    linarith
  · exact h h1
  · exact h h2

theorem exGac_passes (lin : Bool) (pd ad x : ℝ) (h : x ≤ ad) : rGacPasses (exGac lin pd ad (x * Real.pi)) = some true := by
  show some (_ && _ && _) = some true
  have hpi := Real.pi_ne_zero
  have : ¬ ad * 1 < x * Real.pi * 1 / (Real.pi * (2 * 1 / 2) ^ 2 * (1 * 1)) := by
    rw [show x * Real.pi * 1 / (Real.pi * (2 * 1 / 2) ^ 2 * (1 * 1)) = x by field_simp]
    linarith
  have h2 : (decide (¬ ad * 1 < x * Real.pi * 1 / (Real.pi * (2 * 1 / 2) ^ 2 * (1 * 1)))) = true := decide_eq_true this
  rw [Option.some.injEq, Bool.and_eq_true, Bool.and_eq_true]
  refine ⟨⟨?_, ?_⟩, ?_⟩
  · convert h2 using 2
    exact Iff.rfl
  · show rWaters.contains "Organic Free" = true
    decide
  · show rChems.contains "PFAS" = true
    decide

/-- C171 is false: a bed of 0.6 g/mL, grains said to be of 0.5 g/mL and an apparent density of 0.9 g/mL. -/
theorem c171_false : ¬ C171 := by
  intro H
  obtain ⟨fl, -, hc⟩ := exGac_column true 0.5 0.9 (0.6 * Real.pi)
  have hpi := Real.pi_pos
  have h := (H _ _ 1 1 hc (by show (0 : ℝ) < 0.6 * Real.pi; positivity) (by norm_num [exGac]) (by norm_num [exGac]) (by norm_num [exGac])
    (exGac_passes _ _ _ _ (by norm_num))).1
  have e : 1 - 0.6 * Real.pi * 1 / (Real.pi * (2 * 1) ^ 2 / 4 * (1 * 1) * (0.5 * 1)) = -0.2 := by
    field_simp; norm_num
  have h : 0 < 1 - 0.6 * Real.pi * 1 / (Real.pi * (2 * 1) ^ 2 / 4 * (1 * 1) * (0.5 * 1)) := h
  rw [e] at h
  norm_num at h

/-- A column that meets the conditions: bed 0.4 g/mL, apparent density 0.62, particle density 0.803. -/
example : rGacPasses (exGac true 0.803 0.62 (0.4 * Real.pi)) = some true ∧ (exGac true 0.803 0.62 (0.4 * Real.pi)).ad < (exGac true 0.803 0.62 (0.4 * Real.pi)).pd :=
  ⟨exGac_passes _ _ _ _ (by norm_num), by norm_num [exGac]⟩

/-! ### C172 -/

variable {T R : Type}

/-- C172. "Use" puts the fitted isotherms in the place of those on the screen and leaves everything else; before a fit it does not change
the isotherms. -/
def C172 : Prop := ∀ (T R : Type) (A : RGacApp T R) (s : RGacSess T R), A.empty A.zeros = true →
  (∀ r k, s.fit = some (r, k) → A.empty k = false →
    ((A.step s .use).k, (A.step s .use).props, (A.step s .use).inf, (A.step s .use).eff, (A.step s .use).form) =
      (k, s.props, s.inf, s.eff, s.form)) ∧
  (s.fit = none → (A.exec s [.use, .reload]).k = (A.exec s [.reload]).k)

/-- C172, as far as it holds: after a fit the isotherms are the fitted ones, the previous ones are in the second file and the types of
water and compounds stay; the other tables and the form stay if they are those of the files. Missing: changes of the other tables and of
the form since the upload are lost; without a fit the file of isotherms is overwritten by zeros. -/
theorem c172_partial (A : RGacApp T R) (s : RGacSess T R) (r : R) (k : T) (hf : s.fit = some (r, k)) (hk : A.empty k = false) :
    let s' := A.step s .use
    s'.k = k ∧ s'.files.k2 = s.k ∧ s'.form.wfoul = s.form.wfoul ∧ s'.form.cfoul = s.form.cfoul ∧
    (s'.props, s'.inf, s'.eff) = (s.files.props, s.files.inf, s.files.eff) ∧
    s'.form = { rSpecsLoad s.files.specs A.ui with wfoul := s.form.wfoul, cfoul := s.form.cfoul } := by
  have : A.step s .use = A.start { s.files with k2 := s.k, k := k, foul := (s.form.wfoul, s.form.cfoul) } := by
    unfold RGacApp.step
    simp only [hf, Option.map_some, Option.getD_some, hk, Bool.false_eq_true, if_false]
  rw [this]
  exact ⟨rfl, rfl, rfl, rfl, rfl, rfl⟩

/-- C172. Before a fit, "Use" fills the file of isotherms with zeros: they are what the next session starts with, also after the upload of
a workbook without isotherms. -/
theorem c172_zeros (A : RGacApp T R) (s : RGacSess T R) (hf : s.fit = none) (hz : A.empty A.zeros = true) (b : RGacBook T)
    (hb : b.k = none) : (A.exec s [.use, .reload]).k = A.zeros ∧ (A.exec s [.use, .upload b]).k = A.zeros := by
  have : A.step s .use = { s with files := { s.files with k2 := s.k, k := A.zeros } } := by
    unfold RGacApp.step
    simp only [hf, Option.map_none, Option.getD_none, hz, if_true]
  constructor
  · show (A.step (A.step s .use) .reload).k = _
    rw [this]; rfl
  · show (A.step (A.step s .use) (.upload b)).k = _
    rw [this]
    show (b.k.getD A.zeros) = _
    rw [hb]; rfl

/-- An application whose tables are numbers, with 0 the empty one, and whose results are the isotherms. -/
noncomputable def exApp : RGacApp ℕ ℕ := ⟨exGac true 0.8 0.6 1, fun c => .ok c.k, fun c => .ok (c.k, c.k + 1), 0, fun k => k == 0⟩
def exFiles : RGacFiles ℕ := ⟨1, 2, 2, [], 3, 4, ("Organic Free", "PFAS")⟩

/-- C172 is false: "Use" at the start. -/
theorem c172_false : ¬ C172 := by
  intro H
  have h := (H ℕ ℕ exApp (exApp.start exFiles) rfl).2 rfl
  rw [(c172_zeros exApp (exApp.start exFiles) rfl rfl ⟨none, none, none, none, none⟩ rfl).1] at h
  have : (0 : ℕ) = 2 := h
  omega

/-- C172 fails after a fit as well: an influent typed in since the upload is gone. -/
theorem c172_edits : ∃ (s : RGacSess ℕ ℕ) (r k : ℕ), s.fit = some (r, k) ∧ exApp.empty k = false ∧ (exApp.step s .use).inf ≠ s.inf := by
  refine ⟨{ exApp.start exFiles with inf := 9, out := some 2, fit := some (2, 3) }, 2, 3, rfl, rfl, ?_⟩
  have h := (c172_partial exApp { exApp.start exFiles with inf := 9, out := some 2, fit := some (2, 3) } 2 3 rfl rfl).2.2.2.2.1
  simp only [Prod.mk.injEq] at h
  rw [h.2.1]
  show (3 : ℕ) ≠ 9
  omega

/-! ### C173 -/

/-- A result on the screen is that of a run: of the model with some table that passed the check. -/
def Spec.FromRun (A : RGacApp T R) (r : R) : Prop :=
  ∃ (f : RGacForm) (c : RGacCall T), rGacPasses f = some true ∧ rColumnAll f = some c.column ∧ c.wfoul = f.wfoul ∧ c.cfoul = f.cfoul ∧
    A.solve c = .ok r

/-- C173. Whatever the user did, a result on the screen is that of a run which passed the check. -/
theorem c173_results (A : RGacApp T R) (files : RGacFiles T) (evs : List (RGacEv T)) (r : R)
    (h : (A.exec (A.start files) evs).out = some r) : Spec.FromRun A r := by
  have key : ∀ (evs : List (RGacEv T)) (s : RGacSess T R), (∀ r, s.out = some r → Spec.FromRun A r) →
      ∀ r, (A.exec s evs).out = some r → Spec.FromRun A r := by
    intro evs
    induction evs with
    | nil => exact fun s h => h
    | cons e evs ih =>
      intro s hs
      refine ih (A.step s e) ?_
      intro r hr
      cases e with
      | edit p k i e f => exact hs r hr
      | run =>
        unfold RGacApp.step at hr
        dsimp only at hr
        split at hr
        · rename_i c hp hc
          split at hr
          · rename_i r' hsol
            obtain rfl := Option.some.inj hr
            unfold rGacCall at hc
            cases hcol : rColumnAll s.form with
            | none => rw [hcol] at hc; cases hc
            | some col =>
              rw [hcol] at hc
              obtain rfl := Option.some.inj hc
              exact ⟨s.form, _, hp, hcol, rfl, rfl, hsol⟩
          · exact hs r hr
        · exact hs r hr
      | fit =>
        unfold RGacApp.step at hr
        dsimp only at hr
        split at hr
        · split at hr
          · exact hs r hr
          · cases hr
        · exact hs r hr
      | use =>
        unfold RGacApp.step at hr
        dsimp only at hr
        by_cases he : A.empty ((s.fit.map (·.2)).getD A.zeros) = true
        · rw [if_pos he] at hr; exact hs r hr
        · rw [if_neg he] at hr; cases hr
      | upload b => cases hr
      | reload => cases hr
  exact key evs _ (fun r hr => by cases hr) r h

/-- C173. What is drawn of a result belongs to the run it came from: times in bed volumes with the flow of that run, concentrations in the
units of that run. `s` is the session at the time of the run, `evs` what the user did since, without another result. -/
def C173 : Prop := ∀ (T R : Type) (A : RGacApp T R) (s : RGacSess T R) (r : R) (evs : List (RGacEv T)) (tu ou : String) (p : ℝ × ℝ),
  (A.step s .run).out = some r → (∀ k ≤ evs.length, (A.exec (A.step s .run) (evs.take k)).out = some r) →
  rGacDrawn (A.exec (A.step s .run) evs).form tu ou p = rGacDrawn s.form tu ou p

/-- Actions after which the form still has the flow and units it had. -/
def KeepsUnits (f : RGacForm) : RGacEv T → Prop
  | .edit _ _ _ _ g => g.toRHyd = f.toRHyd ∧ g.concUnits = f.concUnits
  | .run => True
  | .fit => True
  | _ => False

theorem run_form (A : RGacApp T R) (s : RGacSess T R) : (A.step s .run).form = s.form := by
  unfold RGacApp.step
  dsimp only
  split
  · split <;> rfl
  · rfl

/-- C173, as far as it holds: after runs, fits that succeed and changes of anything but the flow, the column and the units of
concentration. Missing: the plot takes these from the form as it is now. -/
theorem c173_partial (A : RGacApp T R) (hA : ∀ c, ∃ x, A.fitter c = .ok x) (s : RGacSess T R) (evs : List (RGacEv T)) (tu ou : String)
    (p : ℝ × ℝ) (h : ∀ e ∈ evs, KeepsUnits s.form e) :
    rGacDrawn (A.exec (A.step s .run) evs).form tu ou p = rGacDrawn s.form tu ou p := by
  have key : ∀ (evs : List (RGacEv T)) (q : RGacSess T R), q.form.toRHyd = s.form.toRHyd ∧ q.form.concUnits = s.form.concUnits →
      (∀ e ∈ evs, KeepsUnits s.form e) →
      (A.exec q evs).form.toRHyd = s.form.toRHyd ∧ (A.exec q evs).form.concUnits = s.form.concUnits := by
    intro evs
    induction evs with
    | nil => exact fun q hq _ => hq
    | cons e evs ih =>
      intro q hq he
      refine ih (A.step q e) ?_ fun e' he' => he e' (List.mem_cons_of_mem _ he')
      have hk := he e (List.mem_cons_self ..)
      cases e with
      | edit _ _ _ _ g => exact hk
      | run => rw [run_form]; exact hq
      | fit =>
        unfold RGacApp.step
        dsimp only
        split
        · rename_i c _ _
          obtain ⟨x, hx⟩ := hA c
          rw [hx]
          exact hq
        · exact hq
      | use => exact hk.elim
      | upload b => exact hk.elim
      | reload => exact hk.elim
  obtain ⟨h1, h2⟩ := key evs (A.step s .run) (by rw [run_form]; exact ⟨rfl, rfl⟩) h
  unfold rGacDrawn
  rw [h1, h2]

/-- C173. With the form as it was at the run, the point drawn has the time and the concentration of the result, in the chosen units. -/
theorem c173_drawn (f : RGacForm) (tu ou : String) (p : ℝ × ℝ) (hm : f.toRHyd.Menu) (hL : f.Lv ≠ 0)
    (hu : tu ∈ ["Days", "Hours", "Months"] ∨ tu = "Bed Volumes (x1000)" ∧ f.linear = false ∧ f.fu ≠ "mgd")
    (hc : f.concUnits ∈ ["ug", "ng", "mg"]) (ho : ou ∈ ["mg/L", "ug/L", "ng/L"]) :
    ∃ x y a b, rGacDrawn f tu ou p = (some x, some y) ∧ Spec.AxisRight f.toRHyd "days" tu p.1 x ∧
      Spec.massUnits.lookup f.concUnits = some a ∧ Spec.massUnits.lookup ou = some b ∧ y * b = p.2 * a := by
  obtain ⟨x, hx, h1⟩ := c141_partial f.toRHyd tu p.1 hm hL hu
  obtain ⟨y, a, b, hy, ha, hb, h2⟩ := c142_conc p.2 hc ho
  exact ⟨x, y, a, b, Prod.ext hx hy, h1, ha, hb, h2⟩

/-- The condition on the fit is met by the application of the examples. -/
example : ∀ c, ∃ x, exApp.fitter c = .ok x := fun _ => ⟨_, rfl⟩

/-- C173 is false: a run in ng, then the menu is set to ug; the curve on the screen is now a thousand times higher. -/
theorem c173_false : ¬ C173 := by
  intro H
  have hpass : rGacPasses (exGac true 0.8 0.6 (0.4 * Real.pi)) = some true := exGac_passes _ _ _ _ (by norm_num)
  obtain ⟨col, hcol⟩ : ∃ col, rColumnAll (exGac true 0.8 0.6 (0.4 * Real.pi)) = some col := ⟨_, (exGac_column ..).choose_spec.2⟩
  let s : RGacSess ℕ ℕ := { exApp.start exFiles with form := exGac true 0.8 0.6 (0.4 * Real.pi) }
  have hrun : exApp.step s .run = { s with out := some 2 } := by
    unfold RGacApp.step
    have h2 : rGacCall s = some ⟨col, 1, 2, 3, 4, 7, 12, "Organic Free", "PFAS"⟩ := by
      unfold rGacCall
      rw [show s.form = exGac true 0.8 0.6 (0.4 * Real.pi) from rfl, hcol]
      rfl
    rw [show s.form = exGac true 0.8 0.6 (0.4 * Real.pi) from rfl, hpass, h2]
    rfl
  have h := H ℕ ℕ exApp s 2 [.edit 1 2 3 4 { exGac true 0.8 0.6 (0.4 * Real.pi) with concUnits := "ug" }] "Days" "ug/L" (0, 1)
    (by rw [hrun]) (by
      intro k hk
      rw [hrun]
      rcases k with _ | _ | k
      · rfl
      · rfl
      · simp at hk)
  rw [hrun] at h
  have h2 : some (1 * 1 / 1 : ℝ) = some (1 * 1e-3 / 1) := congrArg Prod.snd h
  rw [Option.some.injEq] at h2
  norm_num at h2

/-! ### C174 -/

/-- C174. The model runs with what is on the screen. -/
def C174 : Prop := ∀ (T R : Type) (s : RGacSess T R) (c : RGacCall T), rGacCall s = some c →
  rColumnAll s.form = some c.column ∧ (c.props, c.k, c.inf, c.eff) = (s.props, s.k, s.inf, s.eff) ∧
  (c.wfoul, c.cfoul) = (s.form.wfoul, s.form.cfoul) ∧ (c.nr, c.nz) = (s.form.nr, s.form.nz)

/-- C174, as far as it holds: all but the numbers of collocation points, which are always 7 and 12. -/
theorem c174_partial (s : RGacSess T R) (c : RGacCall T) (h : rGacCall s = some c) :
    rColumnAll s.form = some c.column ∧ (c.props, c.k, c.inf, c.eff) = (s.props, s.k, s.inf, s.eff) ∧
    (c.wfoul, c.cfoul) = (s.form.wfoul, s.form.cfoul) ∧ (c.nr, c.nz) = (7, 12) := by
  unfold rGacCall at h
  cases hcol : rColumnAll s.form with
  | none => rw [hcol] at h; cases h
  | some col =>
    rw [hcol] at h
    obtain rfl := Option.some.inj h
    exact ⟨rfl, rfl, rfl, rfl⟩

/-- C174. What was typed in last is what runs. -/
theorem c174_edit (A : RGacApp T R) (s : RGacSess T R) (p k i e : T) (f : RGacForm) (c : RGacCall T)
    (h : rGacCall (A.step s (.edit p k i e f)) = some c) :
    rColumnAll f = some c.column ∧ (c.props, c.k, c.inf, c.eff) = (p, k, i, e) ∧ (c.wfoul, c.cfoul) = (f.wfoul, f.cfoul) := by
  obtain ⟨h1, h2, h3, -⟩ := c174_partial _ _ h
  exact ⟨h1, h2, h3⟩

/-- C174. A run that passes the check calls the model with these arguments and shows what it returns; otherwise the screen stays. -/
theorem c174_run (A : RGacApp T R) (s : RGacSess T R) (c : RGacCall T) (h : rGacCall s = some c) :
    (∀ r, rGacPasses s.form = some true → A.solve c = .ok r → A.step s .run = { s with out := some r }) ∧
    (∀ e, A.solve c = .error e → A.step s .run = s) ∧ (rGacPasses s.form ≠ some true → A.step s .run = s) := by
  refine ⟨fun r hp hr => ?_, fun e he => ?_, fun hp => ?_⟩
  · unfold RGacApp.step
    simp only [hp, h, hr]
  · unfold RGacApp.step
    simp only [h]
    cases rGacPasses s.form with
    | none => rfl
    | some b => cases b <;> simp [he]
  · unfold RGacApp.step
    simp only [h]
    cases hb : rGacPasses s.form with
    | none => rfl
    | some b =>
      cases b with
      | false => rfl
      | true => exact absurd hb hp

/-- C174. So does a fit, after a run. -/
theorem c174_fit (A : RGacApp T R) (s : RGacSess T R) (c : RGacCall T) (h : rGacCall s = some c) :
    (∀ o r, s.out = some o → A.fitter c = .ok r → A.step s .fit = { s with fit := some r }) ∧ (s.out = none → A.step s .fit = s) := by
  refine ⟨fun o r ho hr => ?_, fun ho => ?_⟩ <;> unfold RGacApp.step
  · simp only [ho, h, hr]
  · simp only [ho]

/-- C174 is false: with 10 radial points on the screen. -/
theorem c174_false : ¬ C174 := by
  intro H
  obtain ⟨col, hcol⟩ : ∃ col, rColumnAll (exGac true 0.8 0.6 1) = some col := ⟨_, (exGac_column ..).choose_spec.2⟩
  have hcol' : rColumnAll { exGac true 0.8 0.6 1 with nr := 10 } = rColumnAll (exGac true 0.8 0.6 1) := rfl
  let s : RGacSess ℕ ℕ := { exApp.start exFiles with form := { exGac true 0.8 0.6 1 with nr := 10 } }
  have hs : rGacCall s = some ⟨col, 1, 2, 3, 4, 7, 12, "Organic Free", "PFAS"⟩ := by
    unfold rGacCall
    rw [show s.form = { exGac true 0.8 0.6 1 with nr := 10 } from rfl, hcol', hcol]
    rfl
  have h := (H ℕ ℕ s _ hs).2.2.2
  have : (7 : ℕ) = 10 := congrArg Prod.fst h
  omega

/-! ### C175 -/

/-- The files after a start and uploads. -/
def gacUploads {α : Type} (start : RGacFiles α) (ups : List (RGacBook α)) : RGacFiles α := ups.foldl rGacRead start

/-- C175. After an upload each input is that of the workbook, and the default when the workbook does not have it. -/
def C175 : Prop := ∀ (α : Type) (start : RGacFiles α) (ups : List (RGacBook α)) (b : RGacBook α),
  let f := gacUploads start (ups ++ [b])
  f.props = b.props.getD start.props ∧ f.k = b.k.getD start.k ∧ f.specs = b.specs.getD start.specs ∧
  (f.inf, f.eff) = b.data.getD (start.inf, start.eff) ∧ f.foul = b.foul.getD ("Organic Free", "halogenated alkenes")

theorem gacUploads_snoc {α : Type} (start : RGacFiles α) (ups : List (RGacBook α)) (b : RGacBook α) :
    gacUploads start (ups ++ [b]) = rGacRead (gacUploads start ups) b := by
  unfold gacUploads
  rw [List.foldl_append]
  rfl

/-- C175, as far as it holds: what the workbook has is taken, for the types of water and compounds the default otherwise. Missing: the
other inputs that the workbook does not have stay those of the upload before. -/
theorem c175_partial {α : Type} (start : RGacFiles α) (ups : List (RGacBook α)) (b : RGacBook α) :
    let f := gacUploads start (ups ++ [b])
    (∀ x, b.props = some x → f.props = x) ∧ (∀ x, b.k = some x → f.k = x ∧ f.k2 = x) ∧ (∀ x, b.specs = some x → f.specs = x) ∧
    (∀ x, b.data = some x → (f.inf, f.eff) = x) ∧ f.foul = b.foul.getD ("Organic Free", "halogenated alkenes") := by
  intro f
  have hf : f = rGacRead (gacUploads start ups) b := gacUploads_snoc ..
  rw [hf]
  refine ⟨fun x h => ?_, fun x h => ⟨?_, ?_⟩, fun x h => ?_, fun x h => ?_, rfl⟩ <;> simp [rGacRead, h]

/-- The last workbook that had a sheet. -/
theorem gacUploads_last {α β : Type} {get : RGacFiles α → β} {sheet : RGacBook α → Option β}
    (hg : ∀ f b, get (rGacRead f b) = (sheet b).getD (get f)) (start : RGacFiles α) (ups : List (RGacBook α)) :
    get (gacUploads start ups) = ((ups.reverse.filterMap sheet).head?).getD (get start) := by
  induction ups using List.reverseRecOn with
  | nil => rfl
  | append_singleton ups b ih =>
    rw [gacUploads_snoc, hg, ih, List.reverse_append]
    simp only [List.reverse_cons, List.reverse_nil, List.nil_append, List.singleton_append, List.filterMap_cons]
    cases sheet b <;> rfl

/-- C175. After any uploads each table is that of the last workbook that had it. -/
theorem c175_latest {α : Type} (start : RGacFiles α) (ups : List (RGacBook α)) :
    let f := gacUploads start ups
    f.props = ((ups.reverse.filterMap (·.props)).head?).getD start.props ∧ f.k = ((ups.reverse.filterMap (·.k)).head?).getD start.k ∧
    f.specs = ((ups.reverse.filterMap (·.specs)).head?).getD start.specs ∧
    (f.inf, f.eff) = ((ups.reverse.filterMap (·.data)).head?).getD (start.inf, start.eff) :=
  ⟨gacUploads_last (get := (·.props)) (fun _ _ => rfl) .., gacUploads_last (get := (·.k)) (fun _ _ => rfl) ..,
    gacUploads_last (get := (·.specs)) (fun _ _ => rfl) ..,
    gacUploads_last (get := fun f => (f.inf, f.eff)) (fun f b => by cases h : b.data <;> simp [rGacRead, h]) ..⟩

/-- C175. What an upload shows on the screen is what the files then hold, and results of earlier runs are gone. -/
theorem c175_screen (A : RGacApp T R) (s : RGacSess T R) (b : RGacBook T) :
    let s' := A.step s (.upload b)
    s'.files = rGacRead s.files b ∧ (s'.props, s'.k, s'.inf, s'.eff) = (s'.files.props, s'.files.k, s'.files.inf, s'.files.eff) ∧
    s'.out = none ∧ s'.fit = none := ⟨rfl, rfl, rfl, rfl⟩

/-- C175 is false: a workbook with isotherms, then one without. -/
theorem c175_false : ¬ C175 := by
  intro H
  have h := (H ℕ exFiles [⟨none, some 7, none, none, none⟩] ⟨none, none, none, none, none⟩).2.1
  have : (7 : ℕ) = 2 := h
  omega

end WTM
