import Verif.Lemmas.IexIons

/-! Properties C10, C11, C12, C35, C36, C37: ions, influent and reported results of the ion-exchange
models. -/
set_option autoImplicit false
namespace WTM

/-! ### C10 -/

/-- An ion table as a user may enter it: distinct names, positive molecular weights and valences,
accepted concentration units. -/
def GoodIons (ions : List Ion) : Prop :=
  (ions.map Ion.name).Nodup ∧ ∀ i ∈ ions, 0 < i.mw ∧ 0 < i.valence ∧ i.units ∈ Spec.accepted .conc

/-- C10. Converting the influent to meq/L on load and back on a default save gives the input table
back, every column. -/
theorem c10_round_trip {ions : List Ion} (h : GoodIons ions) {cs : Columns}
    (hc : ∀ i ∈ ions, (column cs i.name).isSome) :
    ∃ meq, convDatabase ions (fun i => i.units) (fun _ => "meq") cs = .ok meq ∧
      saveConc ions none meq = .ok cs := by
  obtain ⟨hnd, hi⟩ := h
  have hok : ∀ i ∈ ions, i.Ok := fun i h => ⟨(hi i h).1, (hi i h).2.1⟩
  have m : "meq" ∈ Spec.accepted .conc := by decide
  refine ⟨_, convDatabase_eq hok hnd (fun i h => (hi i h).2.2) (fun _ _ => m) hc, ?_⟩
  unfold saveConc
  rw [convDatabase_eq hok hnd (fun _ _ => m) (fun i h => by simpa using (hi i h).2.2)]
  · rw [scaleBy_scaleBy, scaleBy_one]
    intro p hp
    by_cases hm : p.1 ∈ ions.map Ion.name
    · obtain ⟨i, h1, h2⟩ := List.mem_map.1 hm
      rw [← h2, facOf_mem hnd h1, facOf_mem hnd h1]
      simp only [Option.getD_none]
      rw [ionFac_mul (hok i h1) (hi i h1).2.2 m (hi i h1).2.2, ionFac_self (hok i h1) (hi i h1).2.2]
    · rw [facOf_not_mem hm, facOf_not_mem hm, one_mul]
  · intro i h
    rw [column_scaleBy]
    have := hc i h
    cases e : column cs i.name <;> simp_all

/-- C10. Saving in an explicit unit `u` gives each ion's column converted from its own unit to `u`:
the factor is exactly the one of the unit table for that ion. -/
theorem c10_explicit_unit {ions : List Ion} (h : GoodIons ions) {cs : Columns}
    (hc : ∀ i ∈ ions, (column cs i.name).isSome) {u : String} (hu : u ∈ Spec.accepted .conc) :
    ∃ meq out, convDatabase ions (fun i => i.units) (fun _ => "meq") cs = .ok meq ∧
      saveConc ions (some u) meq = .ok out ∧
      ∀ i ∈ ions, ∃ f, (Simple.conc i.mw i.valence).conv i.units u [] = .ok f ∧
        column out i.name = (column cs i.name).map (fun l => l.map (fun x => f.factor * x)) := by
  obtain ⟨hnd, hi⟩ := h
  have hok : ∀ i ∈ ions, i.Ok := fun i h => ⟨(hi i h).1, (hi i h).2.1⟩
  have m : "meq" ∈ Spec.accepted .conc := by decide
  refine ⟨_, _, convDatabase_eq hok hnd (fun i h => (hi i h).2.2) (fun _ _ => m) hc,
    convDatabase_eq hok hnd (fun _ _ => m) (fun _ _ => by simpa using hu) ?_, ?_⟩
  · intro i h
    rw [column_scaleBy]
    have := hc i h
    cases e : column cs i.name <;> simp_all
  · intro i h1
    refine ⟨_, (ionFac_conv (hok i h1) (hi i h1).2.2 hu []).1, ?_⟩
    rw [scaleBy_scaleBy, column_scaleBy, facOf_mem hnd h1, facOf_mem hnd h1]
    simp only [Option.getD_some]
    rw [ionFac_mul (hok i h1) (hi i h1).2.2 m hu]

/-- C10 through `load_data`: with bicarbonate (or no alkalinity) given, a default save of the loaded
influent reproduces the influent sheet, and the loaded ions are the ions entered. -/
theorem c10_load_save {ions : List Ion} (h : GoodIons ions) {cs : Columns}
    (hc : ∀ i ∈ ions, (column cs i.name).isSome)
    (hb : (column cs "BICARBONATE").isSome ∨ column cs "ALKALINITY" = none ∨ column cs "PH" = none) :
    ∃ d, loadIons ions cs = .ok d ∧ d.ions = ions ∧ saveConc d.ions none d.cin = .ok cs := by
  obtain ⟨meq, h1, h2⟩ := c10_round_trip h hc
  have ha : alkalinity ions cs = .ok (ions, cs) := by
    unfold alkalinity
    rcases hb with hb | hb | hb
    · obtain ⟨l, hl⟩ := Option.isSome_iff_exists.1 hb
      rw [hl]
    · rw [hb]; split <;> simp_all
    · rw [hb]; split <;> simp_all
  refine ⟨⟨ions.map Ion.valence, ions, meq⟩, ?_, rfl, h2⟩
  unfold loadIons
  simp only [ha, h1]

example : GoodIons [⟨"CHLORIDE", 35.45, 1, "mg", none, none⟩, ⟨"SULFATE", 96.06, 2, "ug", none, none⟩] ∧
    (column [("CHLORIDE", [1, 2]), ("SULFATE", [3, 4])] "SULFATE").isSome := by
  refine ⟨⟨by simp, ?_⟩, by simp [column]⟩
  intro i hi
  simp only [List.mem_cons, List.not_mem_nil, or_false] at hi
  rcases hi with rfl | rfl
  · exact ⟨by norm_num, by norm_num, by decide⟩
  · exact ⟨by norm_num, by norm_num, by decide⟩

/-! ### C11 -/

/-- C11. The bicarbonate fraction is strictly between 0 and 1 for every pH. -/
theorem c11_alpha_range (pH : ℝ) : 0 < carbAlpha pH ∧ carbAlpha pH < 1 := by
  have h1 : 0 < k1 := Real.rpow_pos_of_pos (by norm_num) _
  have h2 : 0 < k2 := Real.rpow_pos_of_pos (by norm_num) _
  have h3 : (0:ℝ) < (10 : ℝ) ^ (-pH) := Real.rpow_pos_of_pos (by norm_num) _
  unfold carbAlpha
  simp only
  refine ⟨by positivity, ?_⟩
  rw [div_lt_one (by positivity)]
  have : 0 < ((10 : ℝ) ^ (-pH)) ^ 2 := by positivity
  have : 0 < k1 * k2 := by positivity
  linarith

/-- C11. It is the bicarbonate share of total carbonate: for any concentrations of carbonic acid,
bicarbonate and carbonate in equilibrium (constants 10^-6.42 and 10^-10.43) at hydrogen ion
concentration 10^-pH. -/
theorem c11_alpha_meaning (pH acid bicarb carb : ℝ) (h0 : 0 < acid) (h1 : 0 < bicarb) (h2 : 0 < carb)
    (e1 : (10:ℝ) ^ (-6.42:ℝ) = (10:ℝ) ^ (-pH) * bicarb / acid)
    (e2 : (10:ℝ) ^ (-10.43:ℝ) = (10:ℝ) ^ (-pH) * carb / bicarb) :
    carbAlpha pH = bicarb / (acid + bicarb + carb) := by
  have h3 : (0:ℝ) < (10 : ℝ) ^ (-pH) := Real.rpow_pos_of_pos (by norm_num) _
  unfold carbAlpha
  simp only [k1, k2]
  rw [e1, e2]
  generalize (10:ℝ) ^ (-pH) = h at *
  field_simp

/-- Such concentrations exist for every pH and amount of bicarbonate. -/
example (pH : ℝ) : ∃ acid bicarb carb : ℝ, 0 < acid ∧ 0 < bicarb ∧ 0 < carb ∧
    (10:ℝ) ^ (-6.42:ℝ) = (10:ℝ) ^ (-pH) * bicarb / acid ∧
    (10:ℝ) ^ (-10.43:ℝ) = (10:ℝ) ^ (-pH) * carb / bicarb := by
  have h3 : (0:ℝ) < (10 : ℝ) ^ (-pH) := Real.rpow_pos_of_pos (by norm_num) _
  have h1 : (0:ℝ) < (10:ℝ) ^ (-6.42:ℝ) := Real.rpow_pos_of_pos (by norm_num) _
  have h2 : (0:ℝ) < (10:ℝ) ^ (-10.43:ℝ) := Real.rpow_pos_of_pos (by norm_num) _
  refine ⟨(10:ℝ) ^ (-pH) / (10:ℝ) ^ (-6.42:ℝ), 1, (10:ℝ) ^ (-10.43:ℝ) / (10:ℝ) ^ (-pH), by positivity,
    by norm_num, by positivity, ?_, ?_⟩ <;> field_simp

theorem column_append (a b : Columns) (n : String) : column (a ++ b) n = (column a n).or (column b n) := by
  unfold column
  rw [List.find?_append]
  cases a.find? (fun p => decide (p.1 = n)) <;> rfl

theorem column_filter_ne (cs : Columns) {n m : String} (h : n ≠ m) :
    column (cs.filter (fun p => p.1 ≠ m)) n = column cs n := by
  unfold column
  rw [List.find?_filter]
  congr 2
  funext p
  by_cases hp : p.1 = n
  · simp [hp, h]
  · simp [hp]

/-- C11. Loading alkalinity: the bicarbonate simulated, in meq/L, is alpha(pH) times the alkalinity in
meq/L at every tabulated time; alkalinity is no longer an ion, and bicarbonate is one of molar mass 61.02 and
valence one, in the unit of the alkalinity. -/
theorem c11_bicarbonate {ions : List Ion} (h : GoodIons ions) {cs : Columns} {a : Ion}
    {alk ph : List ℝ}
    (ha : ions.find? (fun i => i.name = "ALKALINITY") = some a)
    (hnb : "BICARBONATE" ∉ ions.map Ion.name)
    (hc : ∀ i ∈ ions, i.name ≠ "PH" ∧ (column cs i.name).isSome)
    (hb : column cs "BICARBONATE" = none) (hal : column cs "ALKALINITY" = some alk)
    (hph : column cs "PH" = some ph) :
    ∃ d f, loadIons ions cs = .ok d ∧
      (Simple.conc a.mw a.valence).conv a.units "meq" [] = .ok f ∧
      column d.cin "BICARBONATE" = some (List.zipWith (fun x p => carbAlpha p * (f.factor * x)) alk ph) ∧
      "ALKALINITY" ∉ d.ions.map Ion.name ∧
      ∃ i ∈ d.ions, i.name = "BICARBONATE" ∧ i.mw = 61.02 ∧ i.valence = 1 ∧ i.units = a.units := by
  obtain ⟨hnd, hi⟩ := h
  have m : "meq" ∈ Spec.accepted .conc := by decide
  have ham : a ∈ ions := List.mem_of_find?_eq_some ha
  have han : a.name = "ALKALINITY" := by simpa using List.find?_some ha
  obtain ⟨q1, q2, q3⟩ := hi a ham
  have oka : a.Ok := ⟨q1, q2⟩
  have c1 := (ionFac_conv oka q3 m []).1
  have okb : (0:ℝ) < bicarbMW := by norm_num [bicarbMW]
  let b : Ion := { a with name := "BICARBONATE", mw := bicarbMW, valence := 1 }
  have okb' : b.Ok := ⟨okb, one_pos⟩
  obtain ⟨c2, p2⟩ := ionFac_conv okb' (a := b.units) q3 m []
  have hany : ions.any (fun i => i.name = "BICARBONATE") = false := by
    rw [List.any_eq_false]
    intro i hi' h'
    exact hnb (List.mem_map.2 ⟨i, hi', by simpa using h'⟩)
  have hions : addBicarb ions a = (ions.filter (fun i => i.name ≠ "ALKALINITY")) ++ [b] := by
    unfold addBicarb
    simp only [hany, Bool.false_eq_true, if_false, List.filter_append]
    congr 1
  set bl := List.zipWith (fun x p => carbAlpha p * x * ionFac a a.units "meq" / ionFac b b.units "meq")
    alk ph with hbl
  set cs' := ((cs ++ [("BICARBONATE", bl)]).filter (fun p => p.1 ≠ "ALKALINITY")).filter
    (fun p => p.1 ≠ "PH") with hcs'
  have halk : alkalinity ions cs = .ok (addBicarb ions a, cs') := by
    unfold alkalinity
    rw [hb, hal, hph]
    simp only [ha, c1]
    have : (Simple.conc bicarbMW 1).conv a.units "meq" [] = _ := c2
    rw [this]
  have hnd' : ((addBicarb ions a).map Ion.name).Nodup := by
    rw [hions, List.map_append, List.nodup_append]
    refine ⟨(List.filter_sublist.map _).nodup hnd, by simp, ?_⟩
    intro x hx y hy
    simp only [List.map_cons, List.map_nil, List.mem_cons, List.not_mem_nil, or_false] at hy
    subst hy
    rintro rfl
    obtain ⟨i, h1, h2⟩ := List.mem_map.1 hx
    exact hnb (List.mem_map.2 ⟨i, (List.mem_filter.1 h1).1, h2⟩)
  have hmem : ∀ i ∈ addBicarb ions a, (i ∈ ions ∧ i.name ≠ "ALKALINITY") ∨ i = b := by
    intro i hi'
    rw [hions] at hi'
    rcases List.mem_append.1 hi' with h1 | h1
    · left; exact ⟨(List.mem_filter.1 h1).1, by simpa using (List.mem_filter.1 h1).2⟩
    · right; simpa using h1
  have hok' : ∀ i ∈ addBicarb ions a, i.Ok := by
    intro i hi'
    rcases hmem i hi' with ⟨h1, -⟩ | rfl
    · exact ⟨(hi i h1).1, (hi i h1).2.1⟩
    · exact okb'
  have hu' : ∀ i ∈ addBicarb ions a, i.units ∈ Spec.accepted .conc := by
    intro i hi'
    rcases hmem i hi' with ⟨h1, -⟩ | rfl
    · exact (hi i h1).2.2
    · exact q3
  have hcol : ∀ n, n ≠ "ALKALINITY" → n ≠ "PH" →
      column cs' n = (column cs n).or (column [("BICARBONATE", bl)] n) := by
    intro n n1 n2
    rw [hcs', column_filter_ne _ n2, column_filter_ne _ n1, column_append]
  have hcc : ∀ i ∈ addBicarb ions a, (column cs' i.name).isSome := by
    intro i hi'
    rcases hmem i hi' with ⟨h1, h2⟩ | rfl
    · rw [hcol _ h2 (hc i h1).1]
      have := (hc i h1).2
      cases e : column cs i.name <;> simp_all
    · have e : column cs' "BICARBONATE" = _ := hcol _ (by decide) (by decide)
      rw [hb] at e
      show (column cs' "BICARBONATE").isSome
      rw [e]; rfl
  have hbm : b ∈ addBicarb ions a := by rw [hions]; simp
  refine ⟨⟨ions.map Ion.valence, addBicarb ions a,
    scaleBy (facOf (addBicarb ions a) (fun i => i.units) (fun _ => "meq")) cs'⟩, _, ?_, c1, ?_, ?_, ?_⟩
  · unfold loadIons
    simp only [halk, convDatabase_eq hok' hnd' hu' (fun _ _ => m) hcc]
  · simp only
    rw [column_scaleBy, hcol _ (by decide) (by decide), hb]
    have e1 : facOf (addBicarb ions a) (fun i => i.units) (fun _ => "meq") "BICARBONATE" =
      ionFac b b.units "meq" := facOf_mem hnd' hbm
    rw [e1]
    simp only [column, List.find?_cons, decide_true, Option.map_some, Option.none_or,
      Option.some.injEq]
    rw [hbl, List.map_zipWith]
    congr 1
    funext x p
    field_simp
  · simp only
    intro hm'
    obtain ⟨i, h1, h2⟩ := List.mem_map.1 hm'
    rcases hmem i h1 with ⟨-, h3⟩ | rfl
    · exact h3 h2
    · exact absurd h2 (show "BICARBONATE" ≠ "ALKALINITY" by decide)
  · exact ⟨b, hbm, rfl, rfl, rfl, rfl⟩

/-- C11. Hence the unit alkalinity is entered in does not matter: if the same alkalinity is written in
another accepted unit, the simulated bicarbonate is the same. -/
theorem c11_unit_irrelevant (i : Ion) (hi : 0 < i.mw ∧ 0 < i.valence) {u u' : String}
    (hu : u ∈ Spec.accepted .conc) (hu' : u' ∈ Spec.accepted .conc) (x p : ℝ) :
    ∃ f g g', (Simple.conc i.mw i.valence).conv u "meq" [] = .ok f ∧
      (Simple.conc i.mw i.valence).conv u u' [] = .ok g ∧
      (Simple.conc i.mw i.valence).conv u' "meq" [] = .ok g' ∧
      carbAlpha p * (f.factor * x) = carbAlpha p * (g'.factor * (x * g.factor)) := by
  have m : "meq" ∈ Spec.accepted .conc := by decide
  refine ⟨_, _, _, (ionFac_conv hi hu m []).1, (ionFac_conv hi hu hu' []).1,
    (ionFac_conv hi hu' m []).1, ?_⟩
  simp only
  rw [← ionFac_mul hi hu hu' m]; ring

example : ∃ (ions : List Ion) (cs : Columns) (a : Ion), GoodIons ions ∧
    ions.find? (fun i => i.name = "ALKALINITY") = some a ∧ "BICARBONATE" ∉ ions.map Ion.name ∧
    (∀ i ∈ ions, i.name ≠ "PH" ∧ (column cs i.name).isSome) ∧ column cs "BICARBONATE" = none ∧
    column cs "ALKALINITY" = some [100, 110] ∧ column cs "PH" = some [7, 7.5] := by
  refine ⟨[⟨"CHLORIDE", 35.45, 1, "mg", none, none⟩, ⟨"ALKALINITY", 100, 2, "mg", none, none⟩],
    [("CHLORIDE", [1, 2]), ("ALKALINITY", [100, 110]), ("PH", [7, 7.5])],
    ⟨"ALKALINITY", 100, 2, "mg", none, none⟩, ⟨by simp, ?_⟩, by simp, by simp, ?_, by simp [column],
    by simp [column], by simp [column]⟩
  · intro i hi
    simp only [List.mem_cons, List.not_mem_nil, or_false] at hi
    rcases hi with rfl | rfl <;> exact ⟨by norm_num, by norm_num, by decide⟩
  · intro i hi
    simp only [List.mem_cons, List.not_mem_nil, or_false] at hi
    rcases hi with rfl | rfl <;> simp [column]

/-! ### C12 -/

/-- C12, full statement: the valence used for the `k`-th simulated ion is that ion's valence. -/
def ValenceAligned (d : IonData) : Prop :=
  ∀ (k : ℕ) (i : Ion), d.ions[k]? = some i → d.simValence k = some i.valence

/-- C12 is false of the code: with alkalinity (valence 2) listed before nitrate, nitrate is simulated
as divalent. -/
theorem c12_false : ∃ (ions : List Ion) (cs : Columns) (d : IonData), GoodIons ions ∧
    loadIons ions cs = .ok d ∧ ¬ ValenceAligned d ∧
    d.ions[1]?.map Ion.name = some "NITRATE" ∧ d.ions[1]?.map Ion.valence = some 1 ∧
    d.simValence 1 = some 2 := by
  let cl : Ion := ⟨"CHLORIDE", 35.45, 1, "meq", none, none⟩
  let al : Ion := ⟨"ALKALINITY", 100, 2, "meq", none, none⟩
  let ni : Ion := ⟨"NITRATE", 62, 1, "meq", none, none⟩
  let ions := [cl, al, ni]
  let cs : Columns := [("CHLORIDE", [1]), ("ALKALINITY", [2]), ("NITRATE", [3]), ("PH", [7])]
  have g : GoodIons ions := by
    refine ⟨by simp [ions, cl, al, ni], ?_⟩
    intro i hi
    simp only [ions, List.mem_cons, List.not_mem_nil, or_false] at hi
    rcases hi with rfl | rfl | rfl <;> exact ⟨by norm_num, by norm_num, by decide⟩
  obtain ⟨d, f, h1, -, -, -, -⟩ := c11_bicarbonate g (cs := cs) (a := al) (alk := [2]) (ph := [7])
    (by simp [ions, cl, al, ni]) (by simp [ions, cl, al, ni])
    (by
      intro i hi
      simp only [ions, List.mem_cons, List.not_mem_nil, or_false] at hi
      rcases hi with rfl | rfl | rfl <;> simp [column, cs, cl, al, ni])
    (by simp [column, cs]) (by simp [column, cs]) (by simp [column, cs])
  have h2 : d.valences = [1, 2, 1] ∧ d.ions = [cl, ni, { al with name := "BICARBONATE", mw := bicarbMW, valence := 1 }] := by
    unfold loadIons at h1
    cases ha : alkalinity ions cs with
    | error e => rw [ha] at h1; cases h1
    | ok p =>
      obtain ⟨ions', cs'⟩ := p
      rw [ha] at h1
      simp only at h1
      have hi' : ions' = addBicarb ions al := by
        unfold alkalinity at ha
        have e1 : column cs "BICARBONATE" = none := by simp [column, cs]
        have e2 : column cs "ALKALINITY" = some [2] := by simp [column, cs]
        have e3 : column cs "PH" = some [7] := by simp [column, cs]
        have e4 : ions.find? (fun i => i.name = "ALKALINITY") = some al := by simp [ions, cl, al, ni]
        rw [e1, e2, e3] at ha
        simp only [e4] at ha
        split at ha
        · cases ha; rfl
        · cases ha
        · cases ha
      split at h1
      · cases h1
      · cases h1
        refine ⟨rfl, ?_⟩
        rw [hi']
        simp [addBicarb, ions, cl, al, ni]
  refine ⟨ions, cs, d, g, h1, ?_, ?_, ?_, ?_⟩
  · intro hv
    have := hv 1 ni (by rw [h2.2]; rfl)
    unfold IonData.simValence at this
    rw [h2.1] at this
    simp [ni] at this
  · rw [h2.2]; rfl
  · rw [h2.2]; rfl
  · unfold IonData.simValence; rw [h2.1]; rfl

/-- C12, the part that holds: without the alkalinity substitution every ion is simulated with its own
valence. Missing: tables where alkalinity is substituted (see `c12_false`). -/
theorem c12_partial {ions : List Ion} {cs : Columns} {d : IonData} (h : loadIons ions cs = .ok d)
    (hb : (column cs "BICARBONATE").isSome ∨ column cs "ALKALINITY" = none ∨ column cs "PH" = none) :
    ValenceAligned d ∧ d.ions = ions := by
  have ha : alkalinity ions cs = .ok (ions, cs) := by
    unfold alkalinity
    rcases hb with hb | hb | hb
    · obtain ⟨l, hl⟩ := Option.isSome_iff_exists.1 hb
      rw [hl]
    · rw [hb]; split <;> simp_all
    · rw [hb]; split <;> simp_all
  unfold loadIons at h
  simp only [ha] at h
  split at h
  · cases h
  · cases h
    refine ⟨?_, rfl⟩
    intro k i hk
    simp only [IonData.simValence, List.getElem?_map] at hk ⊢
    rw [hk]; rfl

/-- C12, substituted case that is harmless: if alkalinity is the last ion and entered with valence 1,
all valences are right. -/
theorem c12_alkalinity_last_partial {pre : List Ion} {a : Ion} {cs : Columns} {d : IonData}
    (hpre : ∀ i ∈ pre, i.name ≠ "ALKALINITY" ∧ i.name ≠ "BICARBONATE")
    (ha : a.name = "ALKALINITY") (hv : a.valence = 1)
    (h : loadIons (pre ++ [a]) cs = .ok d)
    (hc : column cs "BICARBONATE" = none ∧ (column cs "ALKALINITY").isSome ∧ (column cs "PH").isSome) :
    ValenceAligned d := by
  obtain ⟨c1, c2, c3⟩ := hc
  obtain ⟨alk, c2⟩ := Option.isSome_iff_exists.1 c2
  obtain ⟨ph, c3⟩ := Option.isSome_iff_exists.1 c3
  have hf : (pre ++ [a]).find? (fun i => i.name = "ALKALINITY") = some a := by
    rw [List.find?_append]
    have : pre.find? (fun i => i.name = "ALKALINITY") = none := by
      rw [List.find?_eq_none]; intro i hi; simpa using (hpre i hi).1
    rw [this]; simp [ha]
  unfold loadIons at h
  cases hal : alkalinity (pre ++ [a]) cs with
  | error e => rw [hal] at h; cases h
  | ok p =>
    obtain ⟨ions', cs'⟩ := p
    have hi' : ions' = addBicarb (pre ++ [a]) a := by
      unfold alkalinity at hal
      rw [c1, c2, c3] at hal
      simp only [hf] at hal
      split at hal
      · cases hal; rfl
      · cases hal
      · cases hal
    have hany : (pre ++ [a]).any (fun i => i.name = "BICARBONATE") = false := by
      rw [List.any_eq_false]
      intro i hi h'
      rcases List.mem_append.1 hi with h1 | h1
      · exact (hpre i h1).2 (by simpa using h')
      · simp only [List.mem_cons, List.not_mem_nil, or_false] at h1
        subst h1; simp [ha] at h'
    have hions : ions' = pre ++ [{ a with name := "BICARBONATE", mw := bicarbMW, valence := 1 }] := by
      rw [hi']
      unfold addBicarb
      simp only [hany, Bool.false_eq_true, if_false, List.filter_append]
      have : pre.filter (fun i => i.name ≠ "ALKALINITY") = pre := by
        rw [List.filter_eq_self]; intro i hi; simpa using (hpre i hi).1
      rw [this]
      simp [ha]
    rw [hal] at h
    simp only at h
    split at h
    · cases h
    · cases h
      intro k i hk
      simp only [IonData.simValence, List.map_append, List.map_cons, List.map_nil] at hk ⊢
      rw [hions] at hk
      rw [List.getElem?_append] at hk ⊢
      simp only [List.length_map]
      split at hk
      · rename_i hlt
        rw [if_pos hlt, List.getElem?_map, hk]; rfl
      · rename_i hlt
        rw [if_neg hlt]
        have hk' := hk
        rw [List.getElem?_singleton] at hk' ⊢
        split at hk'
        · rename_i h0
          cases hk'; rw [if_pos h0, hv]
        · cases hk'

example : ∃ d, loadIons [⟨"CHLORIDE", 35.45, 1, "meq", none, none⟩, ⟨"ALKALINITY", 50, 1, "mg", none, none⟩]
    [("CHLORIDE", [1]), ("ALKALINITY", [2]), ("PH", [7])] = .ok d := by
  obtain ⟨d, f, h1, -⟩ := c11_bicarbonate
    (ions := [⟨"CHLORIDE", 35.45, 1, "meq", none, none⟩, ⟨"ALKALINITY", 50, 1, "mg", none, none⟩])
    (cs := [("CHLORIDE", [1]), ("ALKALINITY", [2]), ("PH", [7])])
    (a := ⟨"ALKALINITY", 50, 1, "mg", none, none⟩) (alk := [2]) (ph := [7])
    ⟨by simp, by
      intro i hi
      simp only [List.mem_cons, List.not_mem_nil, or_false] at hi
      rcases hi with rfl | rfl <;> exact ⟨by norm_num, by norm_num, by decide⟩⟩
    (by simp) (by simp)
    (by
      intro i hi
      simp only [List.mem_cons, List.not_mem_nil, or_false] at hi
      rcases hi with rfl | rfl <;> simp [column])
    (by simp [column]) (by simp [column]) (by simp [column])
  exact ⟨d, h1⟩

/-! ### C35 -/

/-- C35. Reported times in a time unit `p`: solver time times the time scale, in seconds, divided by
the number of seconds in `p`, exactly. -/
theorem c35_time {p : String} (hp : p ∈ Spec.accepted .time) (hbv : p ≠ "BV") (L v tb T : ℝ) :
    ∃ (s : ℚ) (r : ℝ), Spec.size .time p = some s ∧ 0 < s ∧ saveTime p L v tb T = .ok r ∧
      r = T * tb / (s : ℝ) := by
  obtain ⟨c, sa, sb, h1, h2, h3, h4, h5, -, h6⟩ :=
    c84_factor_correct .time (by decide) (a := "sec") (b := p) (by decide) hp []
  have e : saveTime p L v tb T = .ok (T * tb * c.factor) := by
    unfold saveTime; rw [if_neg hbv, h1]
  refine ⟨sb, _, h3, h5, e, ?_⟩
  have h2' : sa = 1 := by
    have : Spec.size Simple.time.kind "sec" = some 1 := rfl
    rw [this] at h2; cases h2; rfl
  rw [h6 (by decide) hp, h2']
  push_cast
  ring

/-- C35. Bed volumes are `t v / L`. -/
theorem c35_bed_volumes (L v tb T : ℝ) (hL : L ≠ 0) (hv : v ≠ 0) :
    saveTime "BV" L v tb T = .ok (T * tb * v / L) := by
  unfold saveTime
  rw [if_pos rfl]
  congr 1
  field_simp

/-- C35. Reported times increase with solver time (positive time scale). -/
theorem c35_monotone {p : String} (hp : p ∈ Spec.accepted .time ∨ p = "BV") {L v tb T T' : ℝ}
    (hL : 0 < L) (hv : 0 < v) (htb : 0 < tb) (hT : T < T') :
    ∃ r r', saveTime p L v tb T = .ok r ∧ saveTime p L v tb T' = .ok r' ∧ r < r' := by
  by_cases hbv : p = "BV"
  · subst hbv
    refine ⟨_, _, c35_bed_volumes L v tb T hL.ne' hv.ne', c35_bed_volumes L v tb T' hL.ne' hv.ne', ?_⟩
    gcongr
  · have hp' := hp.resolve_right hbv
    obtain ⟨s, r, a1, a2, a3, a4⟩ := c35_time hp' hbv L v tb T
    obtain ⟨s', r', b1, b2, b3, b4⟩ := c35_time hp' hbv L v tb T'
    rw [a1] at b1; cases b1
    refine ⟨r, r', a3, b3, ?_⟩
    have : (0:ℝ) < s := by exact_mod_cast a2
    rw [a4, b4]
    gcongr

example : "hours" ∈ Spec.accepted .time ∧ "hours" ≠ "BV" := by decide

/-! ### C36 -/

/-- C36. Every reported entry is positive, and an entry that is positive after scaling is reported as
is; whatever the factor used. -/
theorem c36_positive (f : Ion → ℝ) (i : Ion) (u : List ℝ) :
    (convIexU f i u).length = u.length ∧ (∀ y ∈ convIexU f i u, 0 < y) ∧
    ∀ (k : ℕ) (x : ℝ), u[k]? = some x →
      (0 < x * f i → (convIexU f i u)[k]? = some (x * f i)) ∧
      (x * f i ≤ 0 → (convIexU f i u)[k]? = some 1e-16) := by
  refine ⟨by simp [convIexU], ?_, ?_⟩
  · intro y hy
    simp only [convIexU, List.mem_map] at hy
    obtain ⟨z, -, rfl⟩ := hy
    unfold floorPos
    split
    · norm_num
    · rename_i h; exact not_le.1 h
  · intro k x hk
    simp only [convIexU, List.getElem?_map, hk, Option.map_some]
    constructor
    · intro h; rw [floorPos, if_neg (not_le.2 h)]
    · intro h; rw [floorPos, if_pos h]

/-! ### C37 -/

/-- C37, full statement for one ion: the output factor undoes the input conversion. -/
def IexInverse (factor : Ion → ℝ) (i : Ion) : Prop :=
  ∀ c, (Simple.conc i.mw i.valence).conv i.units "meq" [] = .ok c → c.factor * factor i = 1

/-- C37 is false of the code: for sulfate (valence 2) in mg/L, and for any monovalent ion in meq/L. -/
theorem c37_false :
    ¬ IexInverse iexFactor ⟨"SULFATE", 96.06, 2, "mg", none, none⟩ ∧
    ¬ IexInverse iexFactor ⟨"NITRATE", 62, 1, "meq", none, none⟩ ∧
    ¬ IexInverse iexFactorLL ⟨"SULFATE", 96.06, 2, "mg", none, none⟩ ∧
    ¬ IexInverse iexFactorLL ⟨"NITRATE", 62, 1, "mgN", none, none⟩ := by
  refine ⟨fun h => ?_, fun h => ?_, fun h => ?_, fun h => ?_⟩
  · have := h ⟨1 / (96.06/2), "mg", "meq", []⟩ (by rfl)
    simp [iexFactor] at this; try norm_num at this
  · have := h ⟨1 / 1, "meq", "meq", []⟩ (by rfl)
    simp [iexFactor] at this; try norm_num at this
  · have := h ⟨1 / (96.06/2), "mg", "meq", []⟩ (by rfl)
    simp [iexFactorLL] at this; try norm_num at this
  · have := h ⟨1 / (14.001/1), "mgN", "meq", []⟩ (by rfl)
    simp [iexFactorLL] at this; try norm_num at this

/-- C37, the part that holds: monovalent ions in mg, ug or ng (and any ion in g) for `conv_iex_u` of the
ion-exchange package; monovalent ions in mg, ug, ng and any ion in meq for the lead-lag version.
Missing: other valences, and the units meq, eq, mgN, mgC (resp. eq, g, mgN, mgC). -/
theorem c37_partial (i : Ion) (h1 : 0 < i.mw) (h2 : 0 < i.valence) :
    ((i.valence = 1 ∧ i.units ∈ ["mg", "ug", "ng"]) ∨ i.units = "g" → IexInverse iexFactor i) ∧
    ((i.valence = 1 ∧ i.units ∈ ["mg", "ug", "ng"]) ∨ i.units = "meq" → IexInverse iexFactorLL i) := by
  obtain ⟨nm, mw, val, un, kl, ds⟩ := i
  simp only at h1 h2
  constructor
  · rintro (⟨hv, hu⟩ | hu) c hc
    · simp only at hv; subst hv
      simp only [List.mem_cons, List.not_mem_nil, or_false] at hu
      rcases hu with rfl | rfl | rfl
      · cases hc; simp [iexFactor]; field_simp
      · cases hc; simp [iexFactor]; field_simp; norm_num
      · cases hc; simp [iexFactor]; field_simp; norm_num
    · simp only at hu; subst hu
      cases hc; simp [iexFactor]; field_simp
  · rintro (⟨hv, hu⟩ | hu) c hc
    · simp only at hv; subst hv
      simp only [List.mem_cons, List.not_mem_nil, or_false] at hu
      rcases hu with rfl | rfl | rfl
      · cases hc; simp [iexFactorLL]; field_simp
      · cases hc; simp [iexFactorLL]; field_simp; norm_num
      · cases hc; simp [iexFactorLL]; field_simp; norm_num
    · simp only at hu; subst hu
      cases hc; simp [iexFactorLL]

/-- C37, on the table itself: for the ions and units of `c37_partial`, positive concentrations in the
ion's own units, converted to meq as on load and passed through `conv_iex_u`, come back unchanged. For
every other case of the same shape they come back multiplied by one and the same factor, so the shape of
the curve survives. -/
theorem c37_table (f : Ion → ℝ) (i : Ion) {c : Conv} (hc : (Simple.conc i.mw i.valence).conv i.units "meq" [] = .ok c)
    (hpos : 0 < c.factor * f i) (u : List ℝ) (hu : ∀ x ∈ u, 0 < x) :
    (IexInverse f i → convIexU f i (u.map (fun x => x * c.factor)) = u) ∧
    ∃ r, 0 < r ∧ convIexU f i (u.map (fun x => x * c.factor)) = u.map (fun x => r * x) := by
  have key : convIexU f i (u.map (fun x => x * c.factor)) = u.map (fun x => c.factor * f i * x) := by
    unfold convIexU
    rw [List.map_map, List.map_map]
    refine List.map_congr_left fun x hx => ?_
    have h : 0 < x * c.factor * f i := by
      rw [mul_assoc]
      exact mul_pos (hu x hx) hpos
    simp only [Function.comp_apply]
    rw [floorPos, if_neg (not_le.2 h)]
    ring
  refine ⟨fun h => ?_, c.factor * f i, hpos, key⟩
  rw [key, h c hc]
  simp

example : ∃ c, (Simple.conc 62 1).conv "ug" "meq" [] = .ok c ∧
    0 < c.factor * iexFactor ⟨"NITRATE", 62, 1, "ug", none, none⟩ :=
  ⟨⟨1 / (1000 * 62 / 1), "ug", "meq", []⟩, rfl, by simp [iexFactor]; norm_num⟩

example : ∃ c, (Simple.conc 62 1).conv "ug" "meq" [] = .ok c := ⟨⟨1 / (1000 * 62 / 1), "ug", "meq", []⟩, rfl⟩

end WTM
