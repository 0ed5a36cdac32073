import Verif.Props.IexParams

/-! Property C89: the parameters handed to the simulation are in the internal units its equations use. -/
set_option autoImplicit false
namespace WTM

/-- Specification: for each parameter that is a simple quantity, the name typed in the sheet (lower case), the
name read by the simulation, its kind, and the SI size of the unit the equations are written in. The ion
exchange equations are in centimetre, second, gram, litre. -/
def Spec.internalSimple : List (String × String × Spec.Kind × ℚ) :=
  [("rb", "rb", .length, 1 / 100), ("l", "L", .length, 1 / 100), ("diam", "diam", .length, 1 / 100),
   ("time", "time", .time, 1), ("t_end", "t_end", .time, 1), ("m", "m", .weight, 1 / 1000),
   ("vl", "VL", .volume, 1 / 1000)]

/-- The same for quotients. -/
def Spec.internalQuot : List (String × String × Spec.Kind × Spec.Kind × ℚ) :=
  [("kl", "kL", .length, .time, 1 / 100), ("v", "v", .length, .time, 1 / 100),
   ("ds", "Ds", .area, .time, 1 / 10000), ("dp", "Dp", .area, .time, 1 / 10000),
   ("rhop", "RHOP", .weight, .volume, 1000), ("flrt", "flrt", .volume, .time, 1 / 1000000)]

/-- Exchange capacities: milliequivalents per SI unit of mass or volume. -/
def Spec.internalCap : List (String × String × Spec.Kind × ℚ) :=
  [("qm", "Qm", .weight, 1), ("qf", "Qf", .volume, 1 / 1000)]

/-- Numbers without units. -/
def Spec.internalPure : List (String × String) :=
  [("ebed", "EBED"), ("nz", "nz"), ("nr", "nr"), ("epor", "EPOR"), ("w", "w")]

/-- The row of the converted sheet that comes from a given row. -/
theorem convParams_find {rows rows' : List Row} {ans ans' : List String}
    (h : convParams rows ans = .ok (rows', ans')) (hnd : (rows.map Row.name).Nodup) {r : Row} (hr : r ∈ rows) :
    ∃ a a' r', convRow r a = .ok (r', a') ∧ findRow rows' r.name = some r' := by
  induction rows generalizing ans rows' ans' with
  | nil => simp at hr
  | cons r0 rs ih =>
    simp only [convParams] at h
    split at h
    · cases h
    · rename_i r1 a1 h1
      split at h
      · cases h
      · rename_i rs' a2 hrs
        cases h
        have hn : r1.name = r0.name := by
          unfold convRow at h1
          split at h1
          · cases h1
          · split at h1
            · cases h1
            · cases h1; rfl
        simp only [List.map_cons, List.nodup_cons] at hnd
        rcases List.mem_cons.1 hr with rfl | hr
        · exact ⟨_, _, _, h1, by simp [findRow, List.find?, hn]⟩
        · obtain ⟨a, a', r', e1, e2⟩ := ih hrs hnd.2 hr
          refine ⟨a, a', r', e1, ?_⟩
          have : ¬ (r1.name = r.name) := by
            rw [hn]; intro he
            exact hnd.1 (he ▸ List.mem_map_of_mem hr)
          rw [← e2]
          simp [findRow, List.find?, this]

/-- What the final sheet holds for a row of the original one. -/
theorem final_value {sheet out : List Row} {ans : List String} (h : convParamsData sheet ans = .ok out)
    {r : Row} (hr : r ∈ sheet) {fn : PConv} {t : String} (he : paramEntry (lowerStr r.name) = some (fn, t)) :
    ∃ a c, fn.conv (lowerStr r.units) t a = .ok c ∧
      getParam out (rename (lowerStr r.name)) = some (r.value * c.factor) := by
  obtain ⟨rows, ans', extra, q, h1, h2, h3, h4, h5⟩ := getParam_out h
  obtain ⟨-, -, -, -, -, -, -, -, -, hnd⟩ := convParamsData_ok h
  obtain ⟨a, a', r', e1, e2⟩ := convParams_find h1 hnd (r := r.lower) (List.mem_map_of_mem hr)
  have hk : lowerStr r.name ∈ knownNames := paramEntry_known.1 (by rw [he]; rfl)
  have h6 := h5 _ hk
  unfold convRow at e1
  have e3 : paramEntry r.lower.name = some (fn, t) := he
  rw [e3] at e1
  simp only at e1
  split at e1
  · cases e1
  · rename_i c hc
    cases e1
    refine ⟨a, c, hc, ?_⟩
    rw [h6, findRow_append]
    have e4 : findRow rows (lowerStr r.name) = _ := e2
    rw [e4]
    rfl

/-- C89 for lengths, times, masses and volumes given in metric units. -/
theorem c89_simple {sheet out : List Row} {ans : List String} (h : convParamsData sheet ans = .ok out)
    {r : Row} (hr : r ∈ sheet) {nm : String} {k : Spec.Kind} {s0 s : ℚ}
    (hn : (lowerStr r.name, nm, k, s0) ∈ Spec.internalSimple)
    (hu : lowerStr r.units ∈ Spec.accepted k) (hm : lowerStr r.units ∈ Spec.metric k)
    (hs : Spec.size k (lowerStr r.units) = some s) :
    getParam out nm = some (r.value * ((s / s0 : ℚ) : ℝ)) := by
  have key : ∀ (q : Simple) (t : String), paramEntry (lowerStr r.name) = some (.simple q, t) →
      rename (lowerStr r.name) = nm → q.kind = k → q.kind ≠ .conc → t ∈ Spec.accepted q.kind →
      t ∈ Spec.metric q.kind → Spec.size q.kind t = some s0 →
      getParam out nm = some (r.value * ((s / s0 : ℚ) : ℝ)) := by
    intro q t he hrn hk hc ha ht hst
    subst hk
    obtain ⟨a, c, h1, h2⟩ := final_value h hr he
    obtain ⟨c', sa, sb, g1, g2, g3, -, -, -, g4⟩ := c84_factor_correct q hc hu ha a
    rw [show (PConv.simple q).conv (lowerStr r.units) t a = q.conv (lowerStr r.units) t a from rfl, g1] at h1
    cases h1
    rw [hs] at g2; cases g2
    rw [hst] at g3; cases g3
    rw [← hrn, h2, g4 hm ht]
  simp only [Spec.internalSimple, List.mem_cons, Prod.mk.injEq, List.not_mem_nil, or_false] at hn
  rcases hn with ⟨h1, rfl, rfl, rfl⟩ | ⟨h1, rfl, rfl, rfl⟩ | ⟨h1, rfl, rfl, rfl⟩ | ⟨h1, rfl, rfl, rfl⟩ |
    ⟨h1, rfl, rfl, rfl⟩ | ⟨h1, rfl, rfl, rfl⟩ | ⟨h1, rfl, rfl, rfl⟩
  · exact key .length "cm" (by rw [h1]; rfl) (by rw [h1]; decide) rfl (by decide) (by decide) (by decide) rfl
  · exact key .length "cm" (by rw [h1]; rfl) (by rw [h1]; decide) rfl (by decide) (by decide) (by decide) rfl
  · exact key .length "cm" (by rw [h1]; rfl) (by rw [h1]; decide) rfl (by decide) (by decide) (by decide) rfl
  · exact key .time "s" (by rw [h1]; rfl) (by rw [h1]; decide) rfl (by decide) (by decide) (by decide) rfl
  · exact key .time "s" (by rw [h1]; rfl) (by rw [h1]; decide) rfl (by decide) (by decide) (by decide) rfl
  · exact key .weight "g" (by rw [h1]; rfl) (by rw [h1]; decide) rfl (by decide) (by decide) (by decide) rfl
  · refine key .volume "L" (by rw [h1]; rfl) (by rw [h1]; decide) rfl (by decide) (by decide) (by decide) ?_
    show some _ = some _
    norm_num

/-- C89 for velocities, diffusivities, densities and flows given in metric units. -/
theorem c89_quotient {sheet out : List Row} {ans : List String} (h : convParamsData sheet ans = .ok out)
    {r : Row} (hr : r ∈ sheet) {nm n d : String} {kn kd : Spec.Kind} {s0 s t : ℚ}
    (hn : (lowerStr r.name, nm, kn, kd, s0) ∈ Spec.internalQuot)
    (hu : Spec.Reads kn kd (lowerStr r.units) n d) (hm : n ∈ Spec.metric kn) (hd : d ∈ Spec.metric kd)
    (hs : Spec.size kn n = some s) (ht : Spec.size kd d = some t) :
    getParam out nm = some (r.value * ((s / t / s0 : ℚ) : ℝ)) := by
  have key : ∀ (q : Compound) (n0 d0 : String) (a b : ℚ),
      paramEntry (lowerStr r.name) = some (.compound q, n0 ++ "/" ++ d0) →
      rename (lowerStr r.name) = nm → q.num.kind = kn → q.den.kind = kd → q.Ok → q.num.kind ≠ .conc →
      n0 ∈ Spec.accepted q.num.kind → d0 ∈ Spec.accepted q.den.kind →
      n0 ∈ Spec.metric q.num.kind → d0 ∈ Spec.metric q.den.kind →
      Spec.size q.num.kind n0 = some a → Spec.size q.den.kind d0 = some b → a / b = s0 →
      getParam out nm = some (r.value * ((s / t / s0 : ℚ) : ℝ)) := by
    intro q n0 d0 a b he hrn hk hk' hok hc ha ha' hmn hmd hsa hsb hab
    subst hk hk'
    obtain ⟨ans0, c, h1, h2⟩ := final_value h hr he
    obtain ⟨c', s1, t1, s2, t2, g1, g2, g3, g4, g5, g6⟩ :=
      c84_compound_metric q hok hc hu ⟨ha, ha', Or.inl rfl⟩ ⟨hm, hmn, hd, hmd⟩ ans0
    rw [show (PConv.compound q).conv (lowerStr r.units) (n0 ++ "/" ++ d0) ans0 =
      q.conv (lowerStr r.units) (n0 ++ "/" ++ d0) ans0 from rfl, g1] at h1
    cases h1
    rw [hs] at g2; cases g2
    rw [ht] at g3; cases g3
    rw [hsa] at g4; cases g4
    rw [hsb] at g5; cases g5
    rw [← hrn, h2, g6, hab]
  simp only [Spec.internalQuot, List.mem_cons, Prod.mk.injEq, List.not_mem_nil, or_false] at hn
  rcases hn with ⟨h1, rfl, rfl, rfl, rfl⟩ | ⟨h1, rfl, rfl, rfl, rfl⟩ | ⟨h1, rfl, rfl, rfl, rfl⟩ |
    ⟨h1, rfl, rfl, rfl, rfl⟩ | ⟨h1, rfl, rfl, rfl, rfl⟩ | ⟨h1, rfl, rfl, rfl, rfl⟩
  · exact key .velocity "cm" "s" _ _ (by rw [h1]; rfl) (by rw [h1]; decide) rfl rfl trivial (by decide) (by decide)
      (by decide) (by decide) (by decide) rfl rfl (by norm_num)
  · exact key .velocity "cm" "s" _ _ (by rw [h1]; rfl) (by rw [h1]; decide) rfl rfl trivial (by decide) (by decide)
      (by decide) (by decide) (by decide) rfl rfl (by norm_num)
  · exact key .diffusivity "cm2" "s" _ _ (by rw [h1]; rfl) (by rw [h1]; decide) rfl rfl trivial (by decide) (by decide)
      (by decide) (by decide) (by decide) rfl rfl (by norm_num)
  · exact key .diffusivity "cm2" "s" _ _ (by rw [h1]; rfl) (by rw [h1]; decide) rfl rfl trivial (by decide) (by decide)
      (by decide) (by decide) (by decide) rfl rfl (by norm_num)
  · exact key .density "g" "ml" _ _ (by rw [h1]; rfl) (by rw [h1]; decide) rfl rfl trivial (by decide) (by decide)
      (by decide) (by decide) (by decide) rfl rfl (by norm_num)
  · exact key .flow "cm3" "s" _ _ (by rw [h1]; rfl) (by rw [h1]; decide) rfl rfl trivial (by decide) (by decide)
      (by decide) (by decide) (by decide) rfl rfl (by norm_num)

/-- C89 for exchange capacities stated in equivalents per metric unit of mass or volume. -/
theorem c89_capacity {sheet out : List Row} {ans : List String} (h : convParamsData sheet ans = .ok out)
    {r : Row} (hr : r ∈ sheet) {nm n d : String} {kd : Spec.Kind} {s0 t : ℚ} {s : ℝ}
    (hn : (lowerStr r.name, nm, kd, s0) ∈ Spec.internalCap)
    (hu : Spec.Reads .conc kd (lowerStr r.units) n d) (hd : d ∈ Spec.metric kd)
    (hs : Spec.meqSize 1 1 n = some s) (ht : Spec.size kd d = some t) :
    getParam out nm = some (r.value * (s / (t / s0 : ℚ))) := by
  have key : ∀ (q : Compound) (d0 : String),
      paramEntry (lowerStr r.name) = some (.compound q, "meq" ++ "/" ++ d0) →
      rename (lowerStr r.name) = nm → q.num = .conc 1 1 → q.den.kind = kd → q.Ok → q.den.kind ≠ .conc →
      d0 ∈ Spec.accepted q.den.kind → d0 ∈ Spec.metric q.den.kind →
      Spec.size q.den.kind d0 = some s0 →
      getParam out nm = some (r.value * (s / (t / s0 : ℚ))) := by
    intro q d0 he hrn hk hk' hok hc ha hmd hsb
    subst hk'
    obtain ⟨ans0, c, h1, h2⟩ := final_value h hr he
    have hq : q.num.kind = .conc := by rw [hk]; rfl
    obtain ⟨c', cn, cd, g1, g2, g3, g4, -, -, -⟩ := c04_compound_factor q hok
      (by rw [hq]; exact hu) (u₂ := "meq" ++ "/" ++ d0) (n₂ := "meq") (d₂ := d0)
      ⟨by rw [hq]; decide, ha, Or.inl rfl⟩ ans0
    rw [show (PConv.compound q).conv (lowerStr r.units) ("meq" ++ "/" ++ d0) ans0 =
      q.conv (lowerStr r.units) ("meq" ++ "/" ++ d0) ans0 from rfl, g1] at h1
    cases h1
    rw [hk] at g2
    obtain ⟨x, sa, sb, f1, f2, f3, -, -, f4⟩ := c84_conc_exact 1 1 one_pos one_pos hu.1
      (show "meq" ∈ Spec.accepted .conc by decide) ans0
    rw [f1] at g2; cases g2
    obtain ⟨y, ta, tb, e1, e2, e3, -, -, -, e4⟩ := c84_factor_correct q.den hc hu.2.1 ha ans0
    rw [e1] at g3; cases g3
    rw [hs] at f2; cases f2
    rw [show Spec.meqSize 1 1 "meq" = some 1 from rfl] at f3; cases f3
    rw [ht] at e2; cases e2
    rw [hsb] at e3; cases e3
    rw [← hrn, h2, g4, f4, e4 hd hmd, div_one]
  simp only [Spec.internalCap, List.mem_cons, Prod.mk.injEq, List.not_mem_nil, or_false] at hn
  rcases hn with ⟨h1, rfl, rfl, rfl⟩ | ⟨h1, rfl, rfl, rfl⟩
  · exact key (.capMass 1 1) "kg" (by rw [h1]; rfl) (by rw [h1]; decide) rfl rfl ⟨one_pos, one_pos⟩ (by simp [Compound.den, Simple.kind])
      (by simp [Compound.den, Simple.kind, Spec.accepted]) (by simp [Compound.den, Simple.kind, Spec.metric]) rfl
  · refine key (.capVol 1 1) "L" (by rw [h1]; rfl) (by rw [h1]; decide) rfl rfl ⟨one_pos, one_pos⟩ (by simp [Compound.den, Simple.kind])
      (by simp [Compound.den, Simple.kind, Spec.accepted]) (by simp [Compound.den, Simple.kind, Spec.metric]) ?_
    show some _ = some _
    norm_num

/-- C89 for pure numbers. -/
theorem c89_pure {sheet out : List Row} {ans : List String} (h : convParamsData sheet ans = .ok out)
    {r : Row} (hr : r ∈ sheet) {nm : String} (hn : (lowerStr r.name, nm) ∈ Spec.internalPure) :
    getParam out nm = some r.value := by
  have key : paramEntry (lowerStr r.name) = some (.same, "") → rename (lowerStr r.name) = nm →
      getParam out nm = some r.value := by
    intro he hrn
    obtain ⟨a, c, h1, h2⟩ := final_value h hr he
    cases h1
    rw [← hrn, h2, mul_one]
  simp only [Spec.internalPure, List.mem_cons, Prod.mk.injEq, List.not_mem_nil, or_false] at hn
  rcases hn with ⟨h1, rfl⟩ | ⟨h1, rfl⟩ | ⟨h1, rfl⟩ | ⟨h1, rfl⟩ | ⟨h1, rfl⟩ <;>
    exact key (by rw [h1]; rfl) (by rw [h1]; decide)

/-- Every recognised parameter is in one of the four lists. -/
theorem c89_all : ∀ n ∈ knownNames, n ∈ Spec.internalSimple.map Prod.fst ∨ n ∈ Spec.internalQuot.map Prod.fst ∨
    n ∈ Spec.internalCap.map Prod.fst ∨ n ∈ Spec.internalPure.map Prod.fst := by
  rw [knownNames_eq]
  simp [Spec.internalSimple, Spec.internalQuot, Spec.internalCap, Spec.internalPure]

/-- A sheet to which all of these apply: a bed of 0.5 m, 2 m/h, 1.2 eq/L of resin. -/
example : ∃ out, convParamsData [⟨"L", 0.5, "m"⟩, ⟨"v", 2, "m/h"⟩, ⟨"Qf", 1.2, "eq/L"⟩, ⟨"EBED", 0.4, ""⟩] [] =
      .ok out ∧ getParam out "L" = some 50 ∧ getParam out "v" = some (2 * ((1 / 3600 / (1 / 100) : ℚ) : ℝ)) ∧
      getParam out "Qf" = some 1200 ∧ getParam out "EBED" = some 0.4 := by
  have e1 : lowerStr "L" = "l" := by decide
  have e2 : lowerStr "v" = "v" := by decide
  have e3 : lowerStr "Qf" = "qf" := by decide
  have e4 : lowerStr "EBED" = "ebed" := by decide
  have e5 : lowerStr "m" = "m" := by decide
  have e6 : lowerStr "m/h" = "m/h" := by decide
  have e7 : lowerStr "eq/L" = "eq/l" := by decide
  have e8 : lowerStr "" = "" := by decide
  have low : [Row.mk "L" 0.5 "m", ⟨"v", 2, "m/h"⟩, ⟨"Qf", 1.2, "eq/L"⟩, ⟨"EBED", 0.4, ""⟩].map Row.lower =
      [⟨"l", 0.5, "m"⟩, ⟨"v", 2, "m/h"⟩, ⟨"qf", 1.2, "eq/l"⟩, ⟨"ebed", 0.4, ""⟩] := by
    simp only [List.map_cons, List.map_nil, Row.lower, e1, e2, e3, e4, e5, e6, e7, e8]
  have hl : ∃ out, convParamsData [⟨"L", 0.5, "m"⟩, ⟨"v", 2, "m/h"⟩, ⟨"Qf", 1.2, "eq/L"⟩, ⟨"EBED", 0.4, ""⟩] [] =
      .ok out := by
    apply c09_loads
    · rw [low]; simp
    · rw [low]
      intro r hr
      simp only [List.mem_cons, List.not_mem_nil, or_false] at hr
      rcases hr with rfl | rfl | rfl | rfl
      · exact ⟨_, _, rfl, by show _ ∈ Spec.accepted _; decide⟩
      · exact ⟨_, _, rfl, "m", "h", by decide, by decide, Or.inl (by show "m/h" = _; decide)⟩
      · exact ⟨_, _, rfl, "eq", "l", by simp [Compound.num, Simple.kind, Spec.accepted],
          by simp [Compound.den, Simple.kind, Spec.accepted], Or.inl (by show "eq/l" = _; decide)⟩
      · exact ⟨_, _, rfl, trivial⟩
    · rw [low]; simp
    · rw [low]; right
      refine ⟨by simp, ⟨"ebed", 0.4, ""⟩, ?_, by norm_num⟩
      simp [findRow]
  obtain ⟨out, hout⟩ := hl
  refine ⟨out, hout, ?_, ?_, ?_, ?_⟩
  · rw [c89_simple hout (r := ⟨"L", 0.5, "m"⟩) (by simp) (nm := "L") (k := .length) (s0 := 1 / 100) (s := 1)
      (by simp only [e1]; simp [Spec.internalSimple]) (by simp only [e5]; decide) (by simp only [e5]; decide)
      (by simp only [e5]; rfl)]
    norm_num
  · exact c89_quotient hout (r := ⟨"v", 2, "m/h"⟩) (by simp) (nm := "v") (n := "m") (d := "h") (kn := .length)
      (kd := .time) (s0 := 1 / 100) (s := 1) (t := 3600) (by simp only [e2]; simp [Spec.internalQuot])
      (by simp only [e6]; exact ⟨by decide, by decide, Or.inl (by decide)⟩) (by decide) (by decide) rfl rfl
  · rw [c89_capacity hout (r := ⟨"Qf", 1.2, "eq/L"⟩) (by simp) (nm := "Qf") (n := "eq") (d := "l") (kd := .volume)
      (s0 := 1 / 1000) (t := (1 / 10) ^ 3) (s := 1000) (by simp only [e3]; simp [Spec.internalCap])
      (by simp only [e7]; exact ⟨by decide, by decide, Or.inl (by decide)⟩) (by decide) rfl rfl]
    norm_num
  · exact c89_pure hout (r := ⟨"EBED", 0.4, ""⟩) (by simp) (by simp only [e4]; simp [Spec.internalPure])

end WTM
