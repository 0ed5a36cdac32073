import Mathlib.Tactic
import Mathlib.Analysis.Real.Pi.Bounds
import Verif.Model.Pac
import Verif.Props.Pac

/-! C75, C79, C80, C107-C111, C114: construction of the powdered carbon model and its studies. -/
set_option autoImplicit false
namespace WTM
open BigOperators

variable {m nd : ℕ}

/-! ### C108 -/

namespace Spec

/-- Seconds. -/
def pacSec : List (String × ℝ) :=
  let hour := 60 * 60
  [("s", 1), ("sec", 1), ("secs", 1), ("min", 60), ("mins", 60), ("hr", hour), ("hrs", hour),
   ("day", 24 * hour), ("days", 24 * hour)]

/-- Cubic inches are `2.54^3` mL, a gallon is 231 of them, a cubic foot `12^3`. -/
def cubicInch : ℚ := (254 / 100) ^ 3

/-- Millilitres. -/
def pacMl : List (String × ℚ) :=
  [("ml", 1), ("cm3", 1), ("l", 1000), ("gal", 231 * cubicInch), ("ft3", 12 ^ 3 * cubicInch), ("m3", 1000000)]

/-- Millilitres per second. -/
def pacMlps : List (String × ℚ) :=
  [("ml/s", 1), ("ml/min", 1 / 60), ("gpm", 231 * cubicInch / 60), ("gal/min", 231 * cubicInch / 60),
   ("lpm", 1000 / 60), ("l/min", 1000 / 60), ("mgd", 1000000 * (231 * cubicInch) / 86400),
   ("ft3/s", 12 ^ 3 * cubicInch), ("cfs", 12 ^ 3 * cubicInch), ("m3/s", 1000000)]

/-- Micrograms per litre. -/
def pacUgL : List (String × ℚ) :=
  [("ug", 1), ("ug/L", 1), ("ng", 1 / 1000), ("ng/L", 1 / 1000), ("mg", 1000), ("mg/L", 1000)]

end Spec

theorem pacUnit_some {tab : List (String × ℝ)} {u : String} {f : ℝ} (h : tab.lookup u = some f) :
    pacUnit tab u = .ok f := by
  unfold pacUnit; rw [h]

theorem pacUnit_none {tab : List (String × ℝ)} {u : String} (h : ∀ r ∈ tab, r.1 ≠ u) :
    pacUnit tab u = .error .keyError := by
  have : tab.lookup u = none := by
    rw [List.lookup_eq_none_iff]
    intro p hp
    simpa using (h p hp).symm
  unfold pacUnit; rw [this]

/-- C108. Every time unit of the table is exact, and everything else is refused. -/
theorem c108_time (u : String) :
    (∀ f, (u, f) ∈ Spec.pacSec → pacUnit pacTime u = .ok f) ∧
    ((∀ f, (u, f) ∉ Spec.pacSec) → pacUnit pacTime u = .error .keyError) := by
  constructor
  · intro f hf
    simp only [Spec.pacSec, List.mem_cons, Prod.mk.injEq, List.not_mem_nil, or_false] at hf
    rcases hf with ⟨rfl, rfl⟩ | ⟨rfl, rfl⟩ | ⟨rfl, rfl⟩ | ⟨rfl, rfl⟩ | ⟨rfl, rfl⟩ | ⟨rfl, rfl⟩ | ⟨rfl, rfl⟩ |
      ⟨rfl, rfl⟩ | ⟨rfl, rfl⟩
    · exact (show pacUnit pacTime "s" = .ok (1) from rfl).trans (by norm_num)
    · exact (show pacUnit pacTime "sec" = .ok (1) from rfl).trans (by norm_num)
    · exact (show pacUnit pacTime "secs" = .ok (1) from rfl).trans (by norm_num)
    · exact (show pacUnit pacTime "min" = .ok (60) from rfl).trans (by norm_num)
    · exact (show pacUnit pacTime "mins" = .ok (60) from rfl).trans (by norm_num)
    · exact (show pacUnit pacTime "hr" = .ok (60 * 60) from rfl).trans (by norm_num)
    · exact (show pacUnit pacTime "hrs" = .ok (60 * 60) from rfl).trans (by norm_num)
    · exact (show pacUnit pacTime "day" = .ok (24 * 60 * 60) from rfl).trans (by norm_num)
    · exact (show pacUnit pacTime "days" = .ok (24 * 60 * 60) from rfl).trans (by norm_num)
  · intro h
    apply pacUnit_none
    rintro r hr rfl
    simp only [Spec.pacSec, List.mem_cons, Prod.mk.injEq, List.not_mem_nil, or_false] at h
    simp only [pacTime, List.mem_cons, List.not_mem_nil, or_false] at hr
    rcases hr with rfl | rfl | rfl | rfl | rfl | rfl | rfl | rfl | rfl <;> simp at h

/-- C108. Lengths come out in centimetres, by the exact sizes of the units. -/
theorem c108_length (u : String) (hu : u ∈ ["cm", "m", "mm", "in", "ft"]) :
    ∃ s : ℚ, Spec.size .length u = some s ∧ pacUnit pacLength u = .ok (100 * s) := by
  simp only [List.mem_cons, List.not_mem_nil, or_false] at hu
  rcases hu with rfl | rfl | rfl | rfl | rfl
  · exact ⟨_, rfl, (show pacUnit pacLength "cm" = .ok (1) from rfl).trans (by norm_num [pacFt])⟩
  · exact ⟨_, rfl, (show pacUnit pacLength "m" = .ok (100) from rfl).trans (by norm_num [pacFt])⟩
  · exact ⟨_, rfl, (show pacUnit pacLength "mm" = .ok (0.1) from rfl).trans (by norm_num [pacFt])⟩
  · exact ⟨_, rfl, (show pacUnit pacLength "in" = .ok (2.54) from rfl).trans (by norm_num [pacFt])⟩
  · exact ⟨_, rfl, (show pacUnit pacLength "ft" = .ok (pacFt) from rfl).trans (by norm_num [pacFt])⟩

theorem c108_length_other (u : String) (hu : u ∉ ["cm", "m", "mm", "in", "ft"]) :
    pacUnit pacLength u = .error .keyError := by
  apply pacUnit_none
  rintro r hr rfl
  simp only [pacLength, List.mem_cons, List.not_mem_nil, or_false] at hr
  rcases hr with rfl | rfl | rfl | rfl | rfl <;> simp at hu

/-- C108. Volumes, flows and concentrations. -/
theorem c108_volume {u : String} {s : ℚ} (h : (u, s) ∈ Spec.pacMl) : pacUnit pacVolume u = .ok s := by
  simp only [Spec.pacMl, List.mem_cons, Prod.mk.injEq, List.not_mem_nil, or_false] at h
  rcases h with ⟨rfl, rfl⟩ | ⟨rfl, rfl⟩ | ⟨rfl, rfl⟩ | ⟨rfl, rfl⟩ | ⟨rfl, rfl⟩ | ⟨rfl, rfl⟩
  · exact (show pacUnit pacVolume "ml" = .ok (1) from rfl).trans (by norm_num [pacFt, pacLpg, Spec.cubicInch])
  · exact (show pacUnit pacVolume "cm3" = .ok (1) from rfl).trans (by norm_num [pacFt, pacLpg, Spec.cubicInch])
  · exact (show pacUnit pacVolume "l" = .ok (1e3) from rfl).trans (by norm_num [pacFt, pacLpg, Spec.cubicInch])
  · exact (show pacUnit pacVolume "gal" = .ok (pacLpg * 1e3) from rfl).trans (by norm_num [pacFt, pacLpg, Spec.cubicInch])
  · exact (show pacUnit pacVolume "ft3" = .ok (pacFt ^ 3) from rfl).trans (by norm_num [pacFt, pacLpg, Spec.cubicInch])
  · exact (show pacUnit pacVolume "m3" = .ok (100 ^ 3) from rfl).trans (by norm_num [pacFt, pacLpg, Spec.cubicInch])

theorem c108_flow {u : String} {s : ℚ} (h : (u, s) ∈ Spec.pacMlps) : pacUnit pacFlow u = .ok s := by
  simp only [Spec.pacMlps, List.mem_cons, Prod.mk.injEq, List.not_mem_nil, or_false] at h
  rcases h with ⟨rfl, rfl⟩ | ⟨rfl, rfl⟩ | ⟨rfl, rfl⟩ | ⟨rfl, rfl⟩ | ⟨rfl, rfl⟩ | ⟨rfl, rfl⟩ | ⟨rfl, rfl⟩ |
    ⟨rfl, rfl⟩ | ⟨rfl, rfl⟩ | ⟨rfl, rfl⟩
  · exact (show pacUnit pacFlow "ml/s" = .ok (1) from rfl).trans (by norm_num [pacFt, pacLpg, Spec.cubicInch])
  · exact (show pacUnit pacFlow "ml/min" = .ok (1 / 60) from rfl).trans (by norm_num [pacFt, pacLpg, Spec.cubicInch])
  · exact (show pacUnit pacFlow "gpm" = .ok (pacLpg * 1e3 / 60) from rfl).trans (by norm_num [pacFt, pacLpg, Spec.cubicInch])
  · exact (show pacUnit pacFlow "gal/min" = .ok (pacLpg * 1e3 / 60) from rfl).trans (by norm_num [pacFt, pacLpg, Spec.cubicInch])
  · exact (show pacUnit pacFlow "lpm" = .ok (1e3 / 60) from rfl).trans (by norm_num [pacFt, pacLpg, Spec.cubicInch])
  · exact (show pacUnit pacFlow "l/min" = .ok (1e3 / 60) from rfl).trans (by norm_num [pacFt, pacLpg, Spec.cubicInch])
  · exact (show pacUnit pacFlow "mgd" = .ok (1e6 * pacLpg * 1e3 / (24 * 60 * 60)) from rfl).trans (by norm_num [pacFt, pacLpg, Spec.cubicInch])
  · exact (show pacUnit pacFlow "ft3/s" = .ok (pacFt ^ 3 / 1) from rfl).trans (by norm_num [pacFt, pacLpg, Spec.cubicInch])
  · exact (show pacUnit pacFlow "cfs" = .ok (pacFt ^ 3 / 1) from rfl).trans (by norm_num [pacFt, pacLpg, Spec.cubicInch])
  · exact (show pacUnit pacFlow "m3/s" = .ok (100 ^ 3 / 1) from rfl).trans (by norm_num [pacFt, pacLpg, Spec.cubicInch])

theorem c108_conc {u : String} {s : ℚ} (h : (u, s) ∈ Spec.pacUgL) : pacUnit pacConc u = .ok s := by
  simp only [Spec.pacUgL, List.mem_cons, Prod.mk.injEq, List.not_mem_nil, or_false] at h
  rcases h with ⟨rfl, rfl⟩ | ⟨rfl, rfl⟩ | ⟨rfl, rfl⟩ | ⟨rfl, rfl⟩ | ⟨rfl, rfl⟩ | ⟨rfl, rfl⟩
  · exact (show pacUnit pacConc "ug" = .ok (1) from rfl).trans (by norm_num)
  · exact (show pacUnit pacConc "ug/L" = .ok (1) from rfl).trans (by norm_num)
  · exact (show pacUnit pacConc "ng" = .ok (1e-3) from rfl).trans (by norm_num)
  · exact (show pacUnit pacConc "ng/L" = .ok (1e-3) from rfl).trans (by norm_num)
  · exact (show pacUnit pacConc "mg" = .ok (1e3) from rfl).trans (by norm_num)
  · exact (show pacUnit pacConc "mg/L" = .ok (1e3) from rfl).trans (by norm_num)

example : ("mgd", (1000000 * (231 * Spec.cubicInch) / 86400 : ℚ)) ∈ Spec.pacMlps := by simp [Spec.pacMlps]

/-! ### C80 -/

/-- Plan area of a contactor. -/
noncomputable def Spec.planArea (fmt : String) (l w : ℝ) : ℝ :=
  if fmt = "circular" then Real.pi * (l / 2) ^ 2 else l * w

/-- The dimensions are known and agree: the volume is height times plan area. A square is as wide as long;
a circular tank has no width. -/
def Spec.Consistent (fmt : String) (g : PacGeo) : Prop :=
  ∃ l h v : ℝ, g.length = some l ∧ g.height = some h ∧ g.volume = some v ∧
    (fmt = "circular" → v = h * Spec.planArea fmt l 0) ∧
    (fmt ≠ "circular" → ∃ w, g.width = some w ∧ v = h * Spec.planArea fmt l w ∧ (fmt = "square" → w = l))

def Spec.pacFormats : List String := ["square", "rectangular", "circular"]

/-- A row with a positive value in known units. -/
def Spec.Known (tab : List (String × ℝ)) (r : Option PacRow) (x : ℝ) : Prop :=
  0 < x ∧ ∃ q, r = some q ∧ q.conv tab = .ok (some x)

/-- The row of a dimension is left out. -/
def Spec.Missing (r : Option PacRow) : Prop := r = none

/-- C80. With both dimensions given, or one of them left out and a volume stated, the model is built with
volume, height and plan area in agreement, and a stated volume that was needed is kept. -/
def C80 : Prop := ∀ (i : PacIn) (fl : ℝ), i.format.getD "square" ∈ Spec.pacFormats → (∀ a, i.aspect = some a → ∃ x, 0 < x ∧ a = some x) →
  Spec.Known pacFlow i.flow fl →
  (∀ l h, Spec.Known pacLength i.length l → Spec.Known pacLength i.height h → i.volume = none →
    ∃ g, pacGeo i = .ok (g, some fl) ∧ Spec.Consistent (i.format.getD "square") g) ∧
  (∀ l v, Spec.Known pacLength i.length l → Spec.Missing i.height → Spec.Known pacVolume i.volume v →
    ∃ g, pacGeo i = .ok (g, some fl) ∧ Spec.Consistent (i.format.getD "square") g ∧ g.volume = some v) ∧
  (∀ h v, Spec.Missing i.length → Spec.Known pacLength i.height h → Spec.Known pacVolume i.volume v →
    ∃ g, pacGeo i = .ok (g, some fl) ∧ Spec.Consistent (i.format.getD "square") g ∧ g.volume = some v)

theorem pacWidth_of {fmt : String} (hf : fmt ∈ Spec.pacFormats) (a : Option (Option ℝ)) (l : Option ℝ) :
    pacWidth fmt a (some l) = .ok (if fmt = "circular" then none else if fmt = "square" then l
      else ndiv l (a.getD (some 1))) := by
  simp only [Spec.pacFormats, List.mem_cons, List.not_mem_nil, or_false] at hf
  rcases hf with rfl | rfl | rfl
  · rfl
  · rfl
  · rfl

/-- Width of a tank of known length. -/
theorem width_pos {a : Option (Option ℝ)} (ha : ∀ b, a = some b → ∃ x, 0 < x ∧ b = some x) {l : ℝ} (hl : 0 < l) :
    ∃ w, 0 < w ∧ ndiv (some l) (a.getD (some 1)) = some w := by
  cases a with
  | none => exact ⟨l / 1, by positivity, rfl⟩
  | some b =>
    obtain ⟨x, hx, rfl⟩ := ha b rfl
    exact ⟨l / x, by positivity, rfl⟩

theorem pacGeo_eq {i : PacIn} {fl : Option ℝ} {l : Option ℝ} {w : Option ℝ} {h : Option ℝ × ℤ}
    (hl : lenAttr i.length = .ok (some l, 0)) (hw : pacWidth (i.format.getD "square") i.aspect (some l) = .ok w)
    (hh : convOr pacLength i.height = .ok h) (hfl : getFlow i.flow = .ok fl) :
    pacGeo i = (useVolume (i.format.getD "square") i.volume (some l) ⟨l, w, h.1, none, h.2⟩).bind fun g =>
      (fillVolume (i.format.getD "square") (some l) g).bind fun g => .ok (g, fl) := by
  unfold pacGeo
  simp only [bind, Except.bind, pure, Except.pure, hl, hw, hh, hfl, Option.getD_some, zero_add]

theorem lenAttr_known {r : Option PacRow} {x : ℝ} (h : Spec.Known pacLength r x) :
    lenAttr r = .ok (some (some x), 0) := by
  obtain ⟨-, q, rfl, hq⟩ := h
  simp only [lenAttr, hq, bind, Except.bind, pure, Except.pure]

theorem convOr_known {tab : List (String × ℝ)} {r : Option PacRow} {x : ℝ} (h : Spec.Known tab r x) :
    convOr tab r = .ok (some x, 0) := by
  obtain ⟨-, q, rfl, hq⟩ := h
  simp only [convOr, hq, bind, Except.bind, pure, Except.pure]

theorem getFlow_known {r : Option PacRow} {x : ℝ} (h : Spec.Known pacFlow r x) : getFlow r = .ok (some x) := by
  obtain ⟨-, q, rfl, hq⟩ := h
  exact hq

theorem formats_cases {fmt : String} (h : fmt ∈ Spec.pacFormats) :
    fmt = "square" ∨ fmt = "rectangular" ∨ fmt = "circular" := by
  simpa [Spec.pacFormats] using h

/-- C80. Both dimensions given: in agreement, whatever volume is stated besides. -/
theorem c80_both {i : PacIn} {fl l h : ℝ} (hf : i.format.getD "square" ∈ Spec.pacFormats)
    (ha : ∀ b, i.aspect = some b → ∃ x, 0 < x ∧ b = some x) (hfl : Spec.Known pacFlow i.flow fl)
    (hl : Spec.Known pacLength i.length l) (hh : Spec.Known pacLength i.height h) :
    ∃ g, pacGeo i = .ok (g, some fl) ∧ Spec.Consistent (i.format.getD "square") g ∧
      g.length = some l ∧ g.height = some h ∧ g.errs = 0 := by
  rw [pacGeo_eq (lenAttr_known hl) (pacWidth_of hf _ _) (convOr_known hh) (getFlow_known hfl)]
  obtain ⟨w, hw, hwe⟩ := width_pos ha hl.1
  set fmt := i.format.getD "square"
  have huse : ∀ w', (fmt ≠ "circular" → w' ≠ none) →
      useVolume fmt i.volume (some (some l)) ⟨some l, w', some h, none, 0⟩ =
        .ok ⟨some l, w', some h, none, 0⟩ := by
    intro w' hw'
    unfold useVolume
    cases i.volume with
    | none => rfl
    | some r =>
      have : ¬ geoOpen fmt ⟨some l, w', some h, none, 0⟩ := by
        unfold geoOpen
        by_cases hc : fmt = "circular"
        · simp [hc, nmul]
        · obtain ⟨x, rfl⟩ := Option.ne_none_iff_exists'.1 (hw' hc)
          simp [hc, nmul]
      simp only [getLen, bind, Except.bind, if_neg this, pure, Except.pure]
  rw [huse _ (fun hc => by
    rw [if_neg hc]
    split
    · simp
    · rw [hwe]; simp)]
  rcases formats_cases hf with h1 | h1 | h1 <;> rw [h1]
  · refine ⟨_, rfl, ⟨l, h, l * l * h, rfl, rfl, rfl, by simp, fun _ => ⟨l, rfl, ?_, fun _ => rfl⟩⟩, rfl, rfl, rfl⟩
    simp [Spec.planArea]; ring
  · rw [hwe]
    refine ⟨_, rfl, ⟨l, h, l * w * h, rfl, rfl, rfl, by simp, fun _ => ⟨w, rfl, ?_, by simp⟩⟩, rfl, rfl, rfl⟩
    simp [Spec.planArea]; ring
  · refine ⟨_, rfl, ⟨l, h, h * Real.pi / 4 * (l * l), rfl, rfl, rfl, fun _ => ?_, by simp⟩, rfl, rfl, rfl⟩
    simp [Spec.planArea]; ring

/-- C80. Height left out (or not a number) and a volume stated. -/
theorem c80_height {i : PacIn} {fl l v : ℝ} {n : ℤ} (hf : i.format.getD "square" ∈ Spec.pacFormats)
    (ha : ∀ b, i.aspect = some b → ∃ x, 0 < x ∧ b = some x) (hfl : Spec.Known pacFlow i.flow fl)
    (hl : Spec.Known pacLength i.length l) (hh : convOr pacLength i.height = .ok (none, n))
    (hv : Spec.Known pacVolume i.volume v) :
    ∃ g, pacGeo i = .ok (g, some fl) ∧ Spec.Consistent (i.format.getD "square") g ∧
      g.length = some l ∧ g.volume = some v ∧ g.errs = n - 1 := by
  rw [pacGeo_eq (lenAttr_known hl) (pacWidth_of hf _ _) hh (getFlow_known hfl)]
  obtain ⟨w, hw, hwe⟩ := width_pos ha hl.1
  obtain ⟨hv0, q, hq, hqv⟩ := hv
  have hl0 := hl.1
  set fmt := i.format.getD "square"
  rw [hq]
  have huse : ∀ w', useVolume fmt (some q) (some (some l)) ⟨some l, w', none, none, n⟩ =
        .ok (lengthFrom fmt (heightFrom fmt ⟨some l, w', none, some v, n⟩)) := by
    intro w'
    have : geoOpen fmt ⟨some l, w', none, none, n⟩ := by
      unfold geoOpen
      by_cases hc : fmt = "circular"
      · simp [hc, nmul]
      · cases w' <;> simp [hc, nmul]
    simp only [useVolume, getLen, bind, Except.bind, if_pos this, hqv, pure, Except.pure]
  rw [huse]
  rcases formats_cases hf with h1 | h1 | h1 <;> rw [h1]
  · have e : lengthFrom "square" (heightFrom "square" ⟨some l,
        if "square" = "circular" then none else if "square" = "square" then some l
          else ndiv (some l) (i.aspect.getD (some 1)), none, some v, n⟩) =
        ⟨some l, some l, some (v / (l * l)), some v, n - 1⟩ := by
      simp [heightFrom, lengthFrom, nmul, ndiv]
    rw [e]
    refine ⟨_, rfl, ⟨l, v / (l * l), v, rfl, rfl, rfl, by simp, fun _ => ⟨l, rfl, ?_, fun _ => rfl⟩⟩, rfl, rfl, rfl⟩
    simp [Spec.planArea]; field_simp
  · have e : lengthFrom "rectangular" (heightFrom "rectangular" ⟨some l,
        if "rectangular" = "circular" then none else if "rectangular" = "square" then some l
          else ndiv (some l) (i.aspect.getD (some 1)), none, some v, n⟩) =
        ⟨some l, some w, some (v / (l * w)), some v, n - 1⟩ := by
      rw [hwe]
      simp [heightFrom, lengthFrom, nmul, ndiv]
    rw [e]
    refine ⟨_, rfl, ⟨l, v / (l * w), v, rfl, rfl, rfl, by simp, fun _ => ⟨w, rfl, ?_, by simp⟩⟩, rfl, rfl, rfl⟩
    simp [Spec.planArea]; field_simp
  · have e : lengthFrom "circular" (heightFrom "circular" ⟨some l,
        if "circular" = "circular" then none else if "circular" = "square" then some l
          else ndiv (some l) (i.aspect.getD (some 1)), none, some v, n⟩) =
        ⟨some l, none, some (v / (Real.pi / 4 * (l * l))), some v, n - 1⟩ := by
      simp [heightFrom, lengthFrom, nmul, ndiv]
    rw [e]
    have := Real.pi_pos
    refine ⟨_, rfl, ⟨l, v / (Real.pi / 4 * (l * l)), v, rfl, rfl, rfl, fun _ => ?_, by simp⟩, rfl, rfl, rfl⟩
    simp [Spec.planArea]; field_simp; ring

/-- C80. Length present but not a number, height given and a volume stated: the length is found from the
volume; any tank that is not circular comes out square, so a stated aspect ratio is lost. One error is taken
off the count though none was counted. -/
theorem c80_length {i : PacIn} {fl h v : ℝ} (hf : i.format.getD "square" ∈ Spec.pacFormats)
    (hfl : Spec.Known pacFlow i.flow fl) (hl : lenAttr i.length = .ok (some none, 0))
    (hh : Spec.Known pacLength i.height h) (hv : Spec.Known pacVolume i.volume v) :
    ∃ g, pacGeo i = .ok (g, some fl) ∧ Spec.Consistent (i.format.getD "square") g ∧
      g.height = some h ∧ g.volume = some v ∧ (i.format.getD "square" ≠ "circular" → g.width = g.length) ∧
      g.errs = -1 := by
  rw [pacGeo_eq hl (pacWidth_of hf _ _) (convOr_known hh) (getFlow_known hfl)]
  obtain ⟨hv0, q, hq, hqv⟩ := hv
  have hh0 := hh.1
  set fmt := i.format.getD "square"
  rw [hq]
  have huse : ∀ w', useVolume fmt (some q) (some none) ⟨none, w', some h, none, 0⟩ =
        .ok (lengthFrom fmt (heightFrom fmt ⟨none, w', some h, some v, 0⟩)) := by
    intro w'
    have : geoOpen fmt ⟨none, w', some h, none, 0⟩ := by
      unfold geoOpen
      by_cases hc : fmt = "circular" <;> simp [hc, nmul]
    simp only [useVolume, getLen, bind, Except.bind, if_pos this, hqv, pure, Except.pure]
  rw [huse]
  have hpi := Real.pi_pos
  have hn1 : ¬ v / h < 0 := not_lt.2 (by positivity)
  have hn2 : ¬ v * 4 / (Real.pi * h) < 0 := not_lt.2 (by positivity)
  have e : ∀ f w', f ≠ "circular" → lengthFrom f (heightFrom f ⟨none, w', some h, some v, 0⟩) =
        ⟨some (Real.sqrt (v / h)), some (Real.sqrt (v / h)), some h, some v, -1⟩ := by
    intro f w' hf'
    simp [heightFrom, lengthFrom, ndiv, hf', nsqrt, hn1]
  have ec : ∀ w', lengthFrom "circular" (heightFrom "circular" ⟨none, w', some h, some v, 0⟩) =
        ⟨some (Real.sqrt (v * 4 / (Real.pi * h))), w', some h, some v, -1⟩ := by
    intro w'
    simp [heightFrom, lengthFrom, ndiv, nmul, nsqrt, hn2]
  have hs : v = h * (Real.sqrt (v / h) * Real.sqrt (v / h)) := by
    rw [Real.mul_self_sqrt (by positivity)]; field_simp
  rcases formats_cases hf with h1 | h1 | h1 <;> rw [h1]
  · rw [e _ _ (by decide)]
    refine ⟨_, rfl, ⟨_, h, v, rfl, rfl, rfl, by simp, fun _ => ⟨_, rfl, ?_, fun _ => rfl⟩⟩, rfl, rfl, fun _ => rfl, rfl⟩
    simpa [Spec.planArea] using hs
  · rw [e _ _ (by decide)]
    refine ⟨_, rfl, ⟨_, h, v, rfl, rfl, rfl, by simp, fun _ => ⟨_, rfl, ?_, by simp⟩⟩, rfl, rfl, fun _ => rfl, rfl⟩
    simpa [Spec.planArea] using hs
  · rw [ec]
    refine ⟨_, rfl, ⟨_, h, v, rfl, rfl, rfl, fun _ => ?_, by simp⟩, rfl, rfl, by simp, rfl⟩
    simp only [Spec.planArea, if_true]
    rw [div_pow, Real.sq_sqrt (by positivity)]
    field_simp
    norm_num

/-- C80. With a negative volume the length is not found: it stays unknown, and still an error is taken off the count. -/
theorem c80_negative {i : PacIn} {fl h v : ℝ} {q : PacRow} (hf : i.format.getD "square" ∈ Spec.pacFormats)
    (hfl : Spec.Known pacFlow i.flow fl) (hl : lenAttr i.length = .ok (some none, 0))
    (hh : Spec.Known pacLength i.height h) (hq : i.volume = some q) (hqv : q.conv pacVolume = .ok (some v)) (hv : v < 0) :
    ∃ g, pacGeo i = .ok (g, some fl) ∧ g.length = none ∧ g.volume = some v ∧ g.errs = -1 := by
  rw [pacGeo_eq hl (pacWidth_of hf _ _) (convOr_known hh) (getFlow_known hfl)]
  have hh0 := hh.1
  set fmt := i.format.getD "square"
  rw [hq]
  have huse : ∀ w', useVolume fmt (some q) (some none) ⟨none, w', some h, none, 0⟩ =
        .ok (lengthFrom fmt (heightFrom fmt ⟨none, w', some h, some v, 0⟩)) := by
    intro w'
    have : geoOpen fmt ⟨none, w', some h, none, 0⟩ := by
      unfold geoOpen
      by_cases hc : fmt = "circular" <;> simp [hc, nmul]
    simp only [useVolume, getLen, bind, Except.bind, if_pos this, hqv, pure, Except.pure]
  rw [huse]
  have hpi := Real.pi_pos
  have hn1 : v / h < 0 := div_neg_of_neg_of_pos hv hh0
  have hn2 : v * 4 / (Real.pi * h) < 0 := div_neg_of_neg_of_pos (by linarith) (by positivity)
  have e : ∀ f w', f ≠ "circular" → lengthFrom f (heightFrom f ⟨none, w', some h, some v, 0⟩) =
        ⟨none, none, some h, some v, -1⟩ := by
    intro f w' hf'
    simp [heightFrom, lengthFrom, ndiv, hf', nsqrt, hn1]
  have ec : ∀ w', lengthFrom "circular" (heightFrom "circular" ⟨none, w', some h, some v, 0⟩) =
        ⟨none, w', some h, some v, -1⟩ := by
    intro w'
    simp [heightFrom, lengthFrom, ndiv, nmul, nsqrt, hn2]
  rcases formats_cases hf with h1 | h1 | h1 <;> rw [h1]
  · rw [e _ _ (by decide)]
    exact ⟨_, rfl, rfl, rfl, rfl⟩
  · rw [e _ _ (by decide)]
    exact ⟨_, rfl, rfl, rfl, rfl⟩
  · rw [ec]
    exact ⟨_, rfl, rfl, rfl, rfl⟩

example : PacRow.conv pacVolume (some (-2), "ml") = .ok (some (-2 * 1)) := rfl

/-- What holds of C80: everything except for a length row left out. -/
theorem c80_partial {i : PacIn} {fl : ℝ} (hf : i.format.getD "square" ∈ Spec.pacFormats)
    (ha : ∀ b, i.aspect = some b → ∃ x, 0 < x ∧ b = some x) (hfl : Spec.Known pacFlow i.flow fl) :
    (∀ l h, Spec.Known pacLength i.length l → Spec.Known pacLength i.height h → i.volume = none →
      ∃ g, pacGeo i = .ok (g, some fl) ∧ Spec.Consistent (i.format.getD "square") g) ∧
    (∀ l v, Spec.Known pacLength i.length l → Spec.Missing i.height → Spec.Known pacVolume i.volume v →
      ∃ g, pacGeo i = .ok (g, some fl) ∧ Spec.Consistent (i.format.getD "square") g ∧ g.volume = some v) := by
  refine ⟨fun l h hl hh _ => ?_, fun l v hl hh hv => ?_⟩
  · obtain ⟨g, h1, h2, -⟩ := c80_both hf ha hfl hl hh
    exact ⟨g, h1, h2⟩
  · obtain ⟨g, h1, h2, -, h3, -⟩ := c80_height hf ha hfl hl (n := 1) (by rw [hh]; rfl) hv
    exact ⟨g, h1, h2, h3⟩

theorem known_row {tab : List (String × ℝ)} {x f : ℝ} {u : String} (hx : 0 < x) (hf : 0 < f)
    (hu : tab.lookup (lowerStr u) = some f) : Spec.Known tab (some (some x, u)) (x * f) := by
  refine ⟨mul_pos hx hf, _, rfl, ?_⟩
  simp only [PacRow.conv, pacUnit_some hu, bind, Except.bind, pure, Except.pure]
  rfl

/-- Length left out: building fails, with or without a stated volume. -/
theorem c80_no_length {i : PacIn} (h : i.length = none) : ∀ r, pacGeo i ≠ .ok r := by
  intro r hr
  unfold pacGeo at hr
  simp only [h, lenAttr, bind, Except.bind, pure, Except.pure] at hr
  have hfill : ∀ fmt g, g.volume = none → fillVolume fmt none g = .error .attributeError := by
    intro fmt g hg
    simp [fillVolume, hg, getLen, bind, Except.bind]
  have huse : ∀ fmt v g g', g.volume = none → useVolume fmt v none g = .ok g' → g' = g := by
    intro fmt v g g' _ hu
    cases v with
    | none => simpa [useVolume] using hu.symm
    | some q => simp [useVolume, getLen, bind, Except.bind] at hu
  cases hw : pacWidth (i.format.getD "square") i.aspect none with
  | error e => rw [hw] at hr; simp at hr
  | ok w =>
    rw [hw] at hr
    cases hh : convOr pacLength i.height with
    | error e => rw [hh] at hr; simp at hr
    | ok h' =>
      rw [hh] at hr
      simp only at hr
      split at hr
      · simp at hr
      · rename_i g' hg'
        have := huse _ _ _ _ rfl hg'
        subst this
        cases hfl : getFlow i.flow with
        | error e => rw [hfl] at hr; simp at hr
        | ok fl =>
          rw [hfl] at hr
          simp only at hr
          rw [hfill _ _ rfl] at hr
          simp at hr

/-- C80 is false: with the length left out the stated volume and height do not help. -/
theorem c80_false : ¬ C80 := by
  intro h
  obtain ⟨-, -, h3⟩ := h
    { height := some (some 3, "m"), volume := some (some 300, "m3"), flow := some (some 1, "mgd") }
    (1 * (1e6 * pacLpg * 1e3 / (24 * 60 * 60))) (by simp [Spec.pacFormats]) (by simp)
    (known_row (f := 1e6 * pacLpg * 1e3 / (24 * 60 * 60)) one_pos (by norm_num [pacLpg]) rfl)
  obtain ⟨g, hg, -⟩ := h3 (3 * 100) (300 * 100 ^ 3) rfl
    (known_row (f := 100) (by norm_num) (by norm_num) rfl)
    (known_row (f := 100 ^ 3) (by norm_num) (by norm_num) rfl)
  exact c80_no_length rfl _ hg

/-- The hypotheses are met by a rectangular tank of 10 m by 5 m. -/
example : Spec.Known pacLength (some (some 10, "M")) (10 * 100) :=
  known_row (f := 100) (by norm_num) (by norm_num) rfl

/-! ### C107 -/

/-- One for a row that is not there. -/
def Spec.absent {α : Type} (r : Option α) : ℤ := if r.isSome then 0 else 1

/-- C107. Building always succeeds when the units are known, and counts the inputs that are missing. -/
def C107 : Prop := ∀ i : PacIn, i.volume = none → i.format.getD "square" ∈ Spec.pacFormats →
  (∀ r ∈ [i.radius, i.length, i.height], ∀ q, r = some q → ∃ x, q.conv pacLength = .ok (some x)) →
  (∀ r ∈ [i.hrt, i.crt], ∀ q, r = some q → ∃ x, q.conv pacTime = .ok (some x)) →
  (∀ q, i.flow = some q → ∃ x, q.conv pacFlow = .ok (some x)) →
  ∃ b, pacBuild i = .ok b ∧
    b.errs = Spec.absent i.density + Spec.absent i.porosity + Spec.absent i.radius + Spec.absent i.length +
      Spec.absent i.height + Spec.absent i.flow + Spec.absent i.hrt + Spec.absent i.crt + Spec.absent i.dosage

theorem convOr_count {tab : List (String × ℝ)} {r : Option PacRow}
    (h : ∀ q, r = some q → ∃ x, q.conv tab = .ok (some x)) : ∃ x, convOr tab r = .ok (x, Spec.absent r) := by
  cases r with
  | none => exact ⟨none, rfl⟩
  | some q =>
    obtain ⟨x, hx⟩ := h q rfl
    exact ⟨some x, by simp only [convOr, hx, bind, Except.bind, pure, Except.pure]; rfl⟩

theorem plainOr_count (r : Option (Option ℝ)) : (plainOr r).2 = Spec.absent r := by cases r <;> rfl

theorem pacBuild_eq {i : PacIn} {r t c : Option ℝ × ℤ} {g : PacGeo × Option ℝ}
    (hr : convOr pacLength i.radius = .ok r) (hg : pacGeo i = .ok g) (ht : convOr pacTime i.hrt = .ok t)
    (hc : convOr pacTime i.crt = .ok c) :
    pacBuild i = .ok ⟨(plainOr i.density).1, (plainOr i.porosity).1, r.1, g.1, g.2, t.1, c.1,
      (plainOr i.dosage).1, (plainOr i.density).2 + (plainOr i.porosity).2 + r.2 + g.1.errs + t.2 + c.2 +
        (plainOr i.dosage).2⟩ := by
  unfold pacBuild
  simp only [bind, Except.bind, pure, Except.pure, hr, hg, ht, hc]

/-- What holds: with length and flow given, the count is right. -/
theorem c107_partial {i : PacIn} (hv : i.volume = none) (hf : i.format.getD "square" ∈ Spec.pacFormats)
    (h1 : ∀ r ∈ [i.radius, i.length, i.height], ∀ q, r = some q → ∃ x, q.conv pacLength = .ok (some x))
    (h2 : ∀ r ∈ [i.hrt, i.crt], ∀ q, r = some q → ∃ x, q.conv pacTime = .ok (some x))
    (h3 : ∀ q, i.flow = some q → ∃ x, q.conv pacFlow = .ok (some x))
    (hl : i.length.isSome) (hfl : i.flow.isSome) :
    ∃ b, pacBuild i = .ok b ∧
      b.errs = Spec.absent i.density + Spec.absent i.porosity + Spec.absent i.radius + Spec.absent i.length +
        Spec.absent i.height + Spec.absent i.flow + Spec.absent i.hrt + Spec.absent i.crt +
        Spec.absent i.dosage := by
  obtain ⟨ra, hra⟩ := convOr_count (r := i.radius) (h1 _ (by simp))
  obtain ⟨he, hhe⟩ := convOr_count (r := i.height) (h1 _ (by simp))
  obtain ⟨ht, hht⟩ := convOr_count (r := i.hrt) (h2 _ (by simp))
  obtain ⟨cr, hcr⟩ := convOr_count (r := i.crt) (h2 _ (by simp))
  obtain ⟨ql, hql⟩ := Option.isSome_iff_exists.1 hl
  obtain ⟨qf, hqf⟩ := Option.isSome_iff_exists.1 hfl
  obtain ⟨l, hl'⟩ := h1 i.length (by simp) ql hql
  obtain ⟨f, hf'⟩ := h3 qf hqf
  have hla : lenAttr i.length = .ok (some (some l), 0) := by
    rw [hql]; simp only [lenAttr, hl', bind, Except.bind, pure, Except.pure]
  have hfa : getFlow i.flow = .ok (some f) := by rw [hqf]; exact hf'
  have hfv : ∀ g : PacGeo, ∃ g', fillVolume (i.format.getD "square") (some (some l)) g = .ok g' ∧
      g'.errs = g.errs := by
    intro g
    unfold fillVolume
    by_cases hg : g.volume = none
    · by_cases hc : i.format.getD "square" = "circular"
      · rw [if_pos hg, if_pos hc]; exact ⟨_, rfl, rfl⟩
      · rw [if_pos hg, if_neg hc]; exact ⟨_, rfl, rfl⟩
    · rw [if_neg hg]; exact ⟨_, rfl, rfl⟩
  have hgeo := pacGeo_eq hla (pacWidth_of hf _ _) hhe hfa
  rw [hv] at hgeo
  simp only [useVolume, Except.bind] at hgeo
  obtain ⟨g', hg', hge⟩ := hfv ⟨some l, if i.format.getD "square" = "circular" then none
    else if i.format.getD "square" = "square" then some l else ndiv (some l) (i.aspect.getD (some 1)), he,
    none, Spec.absent i.height⟩
  rw [hg'] at hgeo
  refine ⟨_, pacBuild_eq hra hgeo hht hcr, ?_⟩
  simp only [plainOr_count, hge]
  have a1 : Spec.absent i.length = 0 := by simp [Spec.absent, hl]
  have a2 : Spec.absent i.flow = 0 := by simp [Spec.absent, hfl]
  rw [a1, a2]
  ring

/-- Flow left out: building fails. -/
theorem c107_no_flow {i : PacIn} (h : i.flow = none) : ∀ b, pacBuild i ≠ .ok b := by
  have hg : ∀ r, pacGeo i ≠ .ok r := by
    intro r hr
    unfold pacGeo at hr
    simp only [bind, Except.bind, h, getFlow] at hr
    repeat (split at hr <;> try simp at hr)
  intro b hb
  unfold pacBuild at hb
  simp only [bind, Except.bind, pure, Except.pure] at hb
  split at hb
  · simp at hb
  · split at hb
    · simp at hb
    · rename_i r hr
      exact hg _ hr

/-- Length left out: building fails. -/
theorem c107_no_length {i : PacIn} (h : i.length = none) : ∀ b, pacBuild i ≠ .ok b := by
  intro b hb
  unfold pacBuild at hb
  simp only [bind, Except.bind, pure, Except.pure] at hb
  split at hb
  · simp at hb
  · split at hb
    · simp at hb
    · rename_i r hr
      exact c80_no_length h _ hr

/-- C107 is false: an empty table of inputs is an exception, not nine errors. -/
theorem c107_false : ¬ C107 := by
  intro h
  obtain ⟨b, hb, -⟩ := h {} rfl (by simp [Spec.pacFormats]) (by simp) (by simp) (by simp)
  exact c107_no_length rfl b hb

/-- An input can be missing with no error reported: a length that is not a number takes one off. -/
theorem c107_hidden {i : PacIn} {fl h v : ℝ} (hf : i.format.getD "square" ∈ Spec.pacFormats)
    (hfl : Spec.Known pacFlow i.flow fl) (hl : lenAttr i.length = .ok (some none, 0))
    (hh : Spec.Known pacLength i.height h) (hv : Spec.Known pacVolume i.volume v) (hd : i.density = none)
    (hp : i.porosity.isSome) (hdo : i.dosage.isSome) {r t c : ℝ} (hr : Spec.Known pacLength i.radius r)
    (ht : Spec.Known pacTime i.hrt t) (hc : Spec.Known pacTime i.crt c) :
    ∃ b, pacBuild i = .ok b ∧ b.density = none ∧ b.errs = 0 := by
  obtain ⟨g, hg, -, -, -, -, he⟩ := c80_length hf hfl hl hh hv
  refine ⟨_, pacBuild_eq (convOr_known hr) hg (convOr_known ht) (convOr_known hc), ?_, ?_⟩
  · rw [hd]; rfl
  · simp only [plainOr_count, he, hd]
    simp [Spec.absent, hp, hdo]

/-- Such an input: everything given but the density, the length not a number. -/
example : lenAttr (some (none, "m")) = .ok (some none, 0) := rfl

/-! ### C110 -/

/-- Milligrams of carbon per litre of contactor when a volume fraction `1 - e` of it is carbon of density
`rho` in g/mL. -/
noncomputable def Spec.carbonMgPerL (e rho : ℝ) : ℝ := (1 - e) * rho * 1e6

/-- C110. The carbon in the modelled contactor is the stated dose. -/
def C110 : Prop := ∀ (m : ℕ) (p : Pac m), 0 < p.density → 0 < p.dw →
  Spec.carbonMgPerL p.update.epsilon p.update.density = p.dosage

/-- What holds: it is the dose times the density of the carbon over the density of water. -/
theorem c110_partial (p : Pac m) (hw : 0 < p.dw) :
    Spec.carbonMgPerL p.update.epsilon p.update.density = p.dosage * (p.density / p.dw) := by
  show (1 - pacEps p.dosage p.dw) * p.density * 1e6 = _
  unfold pacEps
  field_simp
  ring

/-- C110 is false: half the dose for a carbon of density 0.5. -/
theorem c110_false : ¬ C110 := by
  intro h
  have h1 := h 1 exPac (by show (0 : ℝ) < 0.5; norm_num) (by show (0 : ℝ) < 1; norm_num)
  rw [c110_partial exPac (by show (0 : ℝ) < 1; norm_num)] at h1
  have h2 : (20 : ℝ) * (0.5 / 1) = 20 := h1
  norm_num at h2

/-! ### C114 -/

/-- C114. The capacity rows agree: `qe` is the isotherm at the influent in ug/L, `Ye` adds the pore water,
and `Dg` is the amount on carbon over the amount dissolved, at saturation with the influent. -/
theorem c114_capacity (p : Pac m) (i : Fin m) (hd : p.density ≠ 0) (hC : (p.comp i).C0 * p.conv i ≠ 0) :
    let c := p.update.comp i
    c.der.qe = c.K * (c.C0 * p.conv i) ^ c.xni ∧
    c.der.Dg = (1 - p.update.epsilon) * (p.density * 1e3 * c.der.Ye) / (p.update.epsilon * (c.C0 * p.conv i)) ∧
    c.der.Ye = c.der.qe + p.porosity * (c.C0 * p.conv i) / (p.density * 1e3) ∧
    c.der.X = c.Ds * p.hrt / p.radius ^ 2 := by
  intro c
  set e := pacEps p.dosage p.dw with he
  set q := (p.comp i).K * ((p.comp i).C0 * p.conv i) ^ (p.comp i).xni with hq
  refine ⟨rfl, ?_, ?_, ?_⟩
  · show p.density * 1e3 * q * (1 - e) / (e * ((p.comp i).C0 * p.conv i)) + p.porosity * (1 - e) / e =
      (1 - e) * (p.density * 1e3 * (q + p.porosity / (p.density * 1e3) * (p.comp i).C0 * p.conv i)) /
        (e * ((p.comp i).C0 * p.conv i))
    by_cases h0 : e = 0
    · rw [h0]; simp
    · generalize hc : (p.comp i).C0 * p.conv i = c0 at *
      rw [mul_assoc (p.porosity / (p.density * 1e3)), hc]
      field_simp
  · show q + p.porosity / (p.density * 1e3) * (p.comp i).C0 * p.conv i = q + _
    congr 1
    show _ = p.porosity * ((p.comp i).C0 * p.conv i) / (p.density * 1e3)
    ring
  · show (p.comp i).Ds * p.hrt / (p.radius * p.radius) = (p.comp i).Ds * p.hrt / p.radius ^ 2
    rw [sq]

example : exPac.density ≠ 0 ∧ (exPac.comp 0).C0 * exPac.conv 0 ≠ 0 := by
  constructor
  · show (0.5 : ℝ) ≠ 0; norm_num
  · show (4 : ℝ) * 1 ≠ 0; norm_num

/-! ### C109 -/

theorem update_dose (p : Pac m) (d d' : ℝ) :
    ({ ({ p with dosage := d } : Pac m).update with dosage := d' } : Pac m).update =
      ({ p with dosage := d' } : Pac m).update := rfl

theorem multiLoop_data (ivp : Ivp nd m) (B : Fin (nd + 1) → Fin (nd + 1) → ℝ) (W : Fin (nd + 1) → ℝ) :
    ∀ (ds : List ℝ) (p : Pac m), (multiLoop ivp B W p ds).2 =
      ds.map fun d => (d, ({ p with dosage := d } : Pac m).update.run ivp B W)
  | [], p => rfl
  | d :: ds, p => by
    show (d, _) :: (multiLoop ivp B W ({ p with dosage := d } : Pac m).update ds).2 = _
    rw [multiLoop_data ivp B W ds, List.map_cons]
    congr 1

/-- C109. The result for each dose is that of the model built with that dose and run for 1000 minutes:
neither the other doses nor their order matter. -/
theorem c109_doses (ivp : Ivp nd m) (B : Fin (nd + 1) → Fin (nd + 1) → ℝ) (W : Fin (nd + 1) → ℝ) (p : Pac m)
    (ds : List ℝ) : (p.multiDose ivp B W ds).2 =
      ds.map fun d => (d, ({ p with dosage := d, duration := 60000 } : Pac m).update.run ivp B W) := by
  unfold Pac.multiDose
  simp only [multiLoop_data]
  refine List.map_congr_left fun d _ => ?_
  have : (1000 * 60 : ℝ) = 60000 := by norm_num
  rw [this]

/-- C109. The analysis of a study reports one row per dose, whose value at a contact time is on the straight
line between the two simulated times around it, in ug/L; from the last simulated time on, the last value. -/
theorem c109_analyze (p : Pac m) (data : List (ℝ × List (ℝ × (Fin m → ℝ)))) (t : ℝ) (i : Fin m) :
    (p.analyze data t i).map Prod.fst = data.map Prod.fst ∧
    ∀ d tab, (d, tab) ∈ data → Spec.Increasing tab →
      (∀ a b, Spec.Segment tab a b → a.1 ≤ t → t ≤ b.1 →
        (d, (a.2 i + (b.2 i - a.2 i) / (b.1 - a.1) * (t - a.1)) * p.conv i) ∈ p.analyze data t i) ∧
      (∀ l r, tab = l ++ [r] → r.1 ≤ t → (d, r.2 i * p.conv i) ∈ p.analyze data t i) := by
  constructor
  · unfold Pac.analyze; rw [List.map_map]; rfl
  · intro d tab hmem hinc
    have hmem' : (d, npInterp (tab.map fun r => (r.1, r.2 i)) t * p.conv i) ∈ p.analyze data t i :=
      List.mem_map_of_mem (f := fun d : ℝ × List (ℝ × (Fin m → ℝ)) =>
        (d.1, npInterp (d.2.map fun r => (r.1, r.2 i)) t * p.conv i)) hmem
    have hinc' : Spec.Increasing (tab.map fun r => (r.1, r.2 i)) := List.Pairwise.map _ (fun _ _ h => h) hinc
    constructor
    · rintro a b ⟨l, r, rfl⟩ h1 h2
      rw [npInterp_segment hinc' (a := (a.1, a.2 i)) (b := (b.1, b.2 i))
        ⟨l.map fun r => (r.1, r.2 i), r.map fun r => (r.1, r.2 i), by simp⟩ h1 h2] at hmem'
      exact hmem'
    · rintro l r rfl h1
      rw [List.map_append] at hinc' hmem'
      have := npInterp_last (r := (r.1, r.2 i)) hinc' h1
      simp only [List.map_cons, List.map_nil] at hmem'
      rw [this] at hmem'
      exact hmem'

example : Spec.Increasing [((0 : ℝ), fun _ : Fin 1 => (4 : ℝ)), (10, fun _ => 2), (20, fun _ => 1)] := by
  simp [Spec.Increasing]; norm_num

/-! ### C75 -/

/-- C75. Running the model after a study gives what it gave before. -/
def C75 : Prop := ∀ (m nd : ℕ) (ivp : Ivp nd m) (B : Fin (nd + 1) → Fin (nd + 1) → ℝ) (W : Fin (nd + 1) → ℝ)
  (p : Pac m), p.update = p →
  (∀ ds, (p.multiDose ivp B W ds).1.run ivp B W = p.run ivp B W) ∧
  (∀ simple target tu cu trials,
    (p.hrtStudy ivp B W simple target tu cu trials).1.run ivp B W = p.run ivp B W)

theorem multiLoop_state (ivp : Ivp nd m) (B : Fin (nd + 1) → Fin (nd + 1) → ℝ) (W : Fin (nd + 1) → ℝ) :
    ∀ (ds : List ℝ) (p : Pac m) (h : ds ≠ []), (multiLoop ivp B W p ds).1 =
      ({ p with dosage := ds.getLast h } : Pac m).update
  | [d], p, _ => rfl
  | d :: d' :: ds, p, _ => by
    show (multiLoop ivp B W ({ p with dosage := d } : Pac m).update (d' :: ds)).1 = _
    rw [multiLoop_state ivp B W (d' :: ds) _ (by simp), List.getLast_cons (List.cons_ne_nil _ _)]
    rfl

/-- What a study of doses leaves: dose, duration, factors and given rows as they were; the derived rows and
`epsilon`, so the next run too, are those of the last dose. Recomputing the derived rows undoes it. -/
theorem c75_partial (ivp : Ivp nd m) (B : Fin (nd + 1) → Fin (nd + 1) → ℝ) (W : Fin (nd + 1) → ℝ) (p : Pac m)
    {ds : List ℝ} (h : ds ≠ []) :
    (p.multiDose ivp B W ds).1 =
      { ({ p with dosage := ds.getLast h } : Pac m).update with dosage := p.dosage } ∧
    (p.multiDose ivp B W ds).1.run ivp B W =
      ({ p with dosage := ds.getLast h } : Pac m).update.run ivp B W ∧
    (p.multiDose ivp B W ds).1.update = p.update := by
  have h1 : (p.multiDose ivp B W ds).1 =
      { ({ p with dosage := ds.getLast h } : Pac m).update with dosage := p.dosage } := by
    unfold Pac.multiDose
    simp only [multiLoop_state ivp B W ds _ h]
    rfl
  exact ⟨h1, by rw [h1]; rfl, by rw [h1]; rfl⟩

/-- A study whose last dose is the model's own leaves it as it was. -/
theorem c75_same (ivp : Ivp nd m) (B : Fin (nd + 1) → Fin (nd + 1) → ℝ) (W : Fin (nd + 1) → ℝ) (p : Pac m)
    (hp : p.update = p) {ds : List ℝ} (h : ds = [] ∨ ∃ h : ds ≠ [], ds.getLast h = p.dosage) :
    (p.multiDose ivp B W ds).1 = p := by
  rcases h with rfl | ⟨h1, h2⟩
  · rfl
  · rw [(c75_partial ivp B W p h1).1, h2]
    exact hp

/-- After any other study the initial rates of a run are different ones, for every solver. -/
theorem c75_changed (ivp : Ivp nd m) (B : Fin (nd + 1) → Fin (nd + 1) → ℝ) (W : Fin (nd + 1) → ℝ) (p : Pac m)
    (hp : p.update = p) {ds : List ℝ} (h : ds ≠ []) (hne : ds.getLast h ≠ p.dosage) (hw : 0 < p.dw)
    (h1 : p.dosage < p.dw * 1e6) (h2 : ds.getLast h < p.dw * 1e6) (i : Fin m) (hk : 0 < (p.comp i).kf)
    (hr : 0 < p.radius) (hx : ∀ i, 0 < (p.comp i).xni) :
    ((p.multiDose ivp B W ds).1.rhs B W (pacInit : PacY nd m)).2 i ≠ (p.rhs B W (pacInit : PacY nd m)).2 i := by
  rw [(c75_partial ivp B W p h).1, c113_initial _ B W hx, c113_initial]
  · show -((1 - pacEps (ds.getLast h) p.dw) / pacEps (ds.getLast h) p.dw * (3 * (p.comp i).kf / p.radius)) ≠ _
    have he : p.epsilon = pacEps p.dosage p.dw := by
      conv_lhs => rw [← hp]
      rfl
    rw [he]
    intro hcon
    have hpos : 0 < 3 * (p.comp i).kf / p.radius := by positivity
    have h3 := mul_right_cancel₀ hpos.ne' (neg_injective hcon)
    have e1 : ∀ d, d < p.dw * 1e6 → 0 < pacEps d p.dw := by
      intro d hd
      unfold pacEps
      have : d / (p.dw * 1e6) < 1 := by rw [div_lt_one (by positivity)]; exact hd
      linarith
    have ha := e1 _ h1
    have hb := e1 _ h2
    rw [div_eq_div_iff hb.ne' ha.ne'] at h3
    have h4 : pacEps (ds.getLast h) p.dw = pacEps p.dosage p.dw := by linarith
    unfold pacEps at h4
    have h5 : ds.getLast h / (p.dw * 1e6) = p.dosage / (p.dw * 1e6) := by linarith
    have h6 : p.dw * 1e6 ≠ 0 := by positivity
    exact hne (by field_simp at h5; exact h5)
  · exact hx

theorem hrtLoop_state (ivp : Ivp nd m) (B : Fin (nd + 1) → Fin (nd + 1) → ℝ) (W : Fin (nd + 1) → ℝ) (tg : ℝ) :
    ∀ (xs : List (Option ℝ × ℝ)) (p : Pac m) (h : xs ≠ []), ∃ comp,
      (hrtLoop ivp B W tg p xs).1 =
        { p with dosage := (xs.getLast h).2, epsilon := pacEps (xs.getLast h).2 p.dw, comp := comp }
  | [x], p, _ => ⟨_, rfl⟩
  | x :: y :: xs, p, _ => by
    obtain ⟨c, hc⟩ := hrtLoop_state ivp B W tg (y :: xs) (p.trial x.1 x.2) (by simp)
    refine ⟨c, ?_⟩
    show (hrtLoop ivp B W tg (p.trial x.1 x.2) (y :: xs)).1 = _
    rw [hc, List.getLast_cons (List.cons_ne_nil _ _)]
    rfl

/-- What a study of contact times leaves: the compounds, their factors and the duration as they were; the
dose and `epsilon` are those of the last trial. -/
theorem c75_hrt (ivp : Ivp nd m) (B : Fin (nd + 1) → Fin (nd + 1) → ℝ) (W : Fin (nd + 1) → ℝ) (p : Pac m)
    {simple : Bool} {target : ℝ} {tu cu : String} {trials : List (Option ℝ × ℝ)} (h : trials ≠ [])
    {r} (hr : (p.hrtStudy ivp B W simple target tu cu trials).2 = .ok r) :
    (p.hrtStudy ivp B W simple target tu cu trials).1 =
      { p with dosage := (trials.getLast h).2, epsilon := pacEps (trials.getLast h).2 p.dw } := by
  unfold Pac.hrtStudy at hr ⊢
  simp only at hr ⊢
  split at hr
  · simp at hr
  · simp at hr
  · rename_i ft fc h1 h2
    obtain ⟨c, hc⟩ := hrtLoop_state ivp B W (target * ft) trials
      { p with duration := 3000 * 60
               conv := if lowerStr cu = "same" ∧ simple then p.conv else fun _ => fc
               comp := fun i => { p.comp i with units := if lowerStr cu = "same" then lowerStr tu else lowerStr cu } } h
    rw [hc]

/-- One explicit step as a solver, for the counterexample. -/
noncomputable def eulerIvp : Ivp nd m := fun f T y0 => [(0, y0), (T, y0 + T • f y0)]

theorem exPac_update : exPac.update = exPac := rfl

/-- C75 is false: after a study ending at 40 mg/L the run is no longer that at 20 mg/L. -/
theorem c75_false : ¬ C75 := by
  intro h
  obtain ⟨h1, -⟩ := h 1 0 eulerIvp (fun _ _ => 0) (fun _ => 1 / 3) exPac exPac_update
  have h2 := h1 [40]
  have hx : ∀ i : Fin 1, 0 < (exPac.comp i).xni := fun _ => by show (0 : ℝ) < 1 / 2; norm_num
  have hne := c75_changed (nd := 0) eulerIvp (fun _ _ => 0) (fun _ => 1 / 3) exPac exPac_update (ds := [40])
    (by simp) (by show (40 : ℝ) ≠ 20; norm_num) (by show (0 : ℝ) < 1; norm_num)
    (by show (20 : ℝ) < 1 * 1e6; norm_num) (by show (40 : ℝ) < 1 * 1e6; norm_num) 0
    (by show (0 : ℝ) < 0.01; norm_num) (by show (0 : ℝ) < 0.001; norm_num) hx
  apply hne
  have h3 := congrArg (fun l => (l.map fun r : ℝ × (Fin 1 → ℝ) => r.2 0)) h2
  simp only [Pac.run, eulerIvp, List.map_cons, List.map_nil, List.cons.injEq, and_true] at h3
  have h4 := h3.2
  have c4 : (exPac.comp 0).C0 = 4 := rfl
  have c4' : ((exPac.multiDose (nd := 0) eulerIvp (fun _ _ => 0) (fun _ => 1 / 3) [40]).1.comp 0).C0 = 4 := rfl
  have d1 : exPac.duration = 7200 := rfl
  have d2 : (exPac.multiDose (nd := 0) eulerIvp (fun _ _ => 0) (fun _ => 1 / 3) [40]).1.duration = 7200 := rfl
  rw [c4, c4', d1, d2] at h4
  have h5 := mul_left_cancel₀ (by norm_num : (4 : ℝ) ≠ 0) h4
  simp only [Prod.snd_add, Prod.smul_snd, Pi.add_apply, Pi.smul_apply, smul_eq_mul] at h5
  have h6 := add_left_cancel h5
  exact mul_left_cancel₀ (by norm_num : (7200 : ℝ) ≠ 0) h6

/-- The analytical comparison leaves the model as it was. -/
theorem c75_sol2 (p : Pac m) : p.afterSol2 = p := rfl

/-! ### C79 -/

/-- The curve falls from row to row, and its times increase. -/
def Spec.Falling (tab : List (ℝ × ℝ)) : Prop := tab.Pairwise fun a b => a.1 < b.1 ∧ b.2 < a.2

/-- In a falling table that reaches below a level met by its first row there is a segment across it. -/
theorem falling_cross {cv target : ℝ} : ∀ {tab : List (ℝ × ℝ)} {r0 : ℝ × ℝ} {l : List (ℝ × ℝ)}, tab = r0 :: l →
    target < r0.2 * cv → (∃ r ∈ tab, r.2 * cv ≤ target) →
    ∃ a b, Spec.Segment tab a b ∧ target ≤ a.2 * cv ∧ b.2 * cv ≤ target
  | _, r0, [], rfl, h, ⟨r, hr, hle⟩ => by
    simp only [List.mem_cons, List.not_mem_nil, or_false] at hr
    subst hr; linarith
  | _, r0, r1 :: l, rfl, h, ⟨r, hr, hle⟩ => by
    by_cases h1 : r1.2 * cv ≤ target
    · exact ⟨r0, r1, ⟨[], l, rfl⟩, h.le, h1⟩
    · push Not at h1
      have hr' : r ∈ r1 :: l := by
        rcases List.mem_cons.1 hr with rfl | h2
        · linarith
        · exact h2
      obtain ⟨a, b, ⟨l1, l2, hl⟩, h2, h3⟩ := falling_cross rfl h1 ⟨r, hr', hle⟩
      exact ⟨a, b, ⟨r0 :: l1, l2, by rw [hl]; rfl⟩, h2, h3⟩

theorem rev_increasing {cv : ℝ} (hcv : 0 < cv) {tab : List (ℝ × ℝ)} (h : Spec.Falling tab) :
    Spec.Increasing (tab.map fun r => (r.2 * cv, r.1)).reverse := by
  unfold Spec.Increasing
  rw [List.pairwise_reverse, List.pairwise_map]
  exact h.imp fun hab => mul_lt_mul_of_pos_right hab.2 hcv

/-- C79. For a falling effluent and any target it reaches from above, a contact time is reported and the
piecewise-linear effluent curve, in ug/L, is at the target at that time. -/
theorem c79_reached {cv target : ℝ} (hcv : 0 < cv) {tab : List (ℝ × ℝ)} (hf : Spec.Falling tab)
    {r0 : ℝ × ℝ} {l : List (ℝ × ℝ)} (h0 : tab = r0 :: l) (habove : target < r0.2 * cv)
    (hreach : ∃ r ∈ tab, r.2 * cv ≤ target) :
    ∃ t, hrtCell cv target tab = some t ∧ interpVal (tab.map fun r => (r.1, r.2 * cv)) t = some target := by
  obtain ⟨a, b, ⟨l1, l2, hl⟩, h1, h2⟩ := falling_cross h0 habove hreach
  have hab : a.1 < b.1 ∧ b.2 < a.2 := by
    have := hf
    rw [hl] at this
    unfold Spec.Falling at this
    rw [List.pairwise_append] at this
    exact (List.pairwise_cons.1 this.2.1).1 b (by simp)
  have hc : b.2 * cv < a.2 * cv := mul_lt_mul_of_pos_right hab.2 hcv
  have hseg : Spec.Segment (tab.map fun r => (r.2 * cv, r.1)).reverse (b.2 * cv, b.1) (a.2 * cv, a.1) := by
    refine ⟨(l2.map fun r => (r.2 * cv, r.1)).reverse, (l1.map fun r => (r.2 * cv, r.1)).reverse, ?_⟩
    rw [hl]; simp
  have hv := npInterp_segment (rev_increasing hcv hf) hseg (t := target) h2 h1
  refine ⟨_, by unfold hrtCell; rw [if_pos hreach], ?_⟩
  rw [hv]
  simp only
  set t := b.1 + (a.1 - b.1) / (a.2 * cv - b.2 * cv) * (target - b.2 * cv) with ht
  have hd : 0 < a.2 * cv - b.2 * cv := by linarith
  have hfr0 : 0 ≤ (target - b.2 * cv) / (a.2 * cv - b.2 * cv) := div_nonneg (by linarith) hd.le
  have hfr1 : (target - b.2 * cv) / (a.2 * cv - b.2 * cv) ≤ 1 := by rw [div_le_one hd]; linarith
  have ht' : t = b.1 - (b.1 - a.1) * ((target - b.2 * cv) / (a.2 * cv - b.2 * cv)) := by rw [ht]; ring
  have hta : a.1 ≤ t := by rw [ht']; nlinarith
  have htb : t ≤ b.1 := by rw [ht']; nlinarith
  have hinc : Spec.Increasing (tab.map fun r => (r.1, r.2 * cv)) := by
    unfold Spec.Increasing
    rw [List.pairwise_map]
    exact hf.imp fun h => h.1
  have hs2 : Spec.Segment (tab.map fun r => (r.1, r.2 * cv)) (a.1, a.2 * cv) (b.1, b.2 * cv) :=
    ⟨l1.map fun r => (r.1, r.2 * cv), l2.map fun r => (r.1, r.2 * cv), by rw [hl]; simp⟩
  rw [interp_segment hinc hs2 hta htb]
  simp only
  congr 1
  rw [ht']
  have h3 : b.1 - a.1 ≠ 0 := by linarith [hab.1]
  have h4 : a.2 - b.2 ≠ 0 := by linarith [hab.2]
  field_simp
  ring

/-- C79. A target at or above the initial value reports the first time; one that is never reached reports
nothing. -/
theorem c79_ends {cv target : ℝ} (hcv : 0 < cv) {tab : List (ℝ × ℝ)} (hf : Spec.Falling tab) :
    (∀ r0 l, tab = r0 :: l → r0.2 * cv ≤ target → hrtCell cv target tab = some r0.1) ∧
    ((∀ r ∈ tab, target < r.2 * cv) → hrtCell cv target tab = none) := by
  constructor
  · rintro r0 l rfl h
    unfold hrtCell
    rw [if_pos ⟨r0, by simp, h⟩]
    congr 1
    have := rev_increasing hcv hf
    simp only [List.map_cons, List.reverse_cons] at this ⊢
    exact npInterp_last (r := (r0.2 * cv, r0.1)) this h
  · intro h
    unfold hrtCell
    rw [if_neg]
    push Not
    exact h

/-- A falling curve crossing 2 ug/L. -/
example : Spec.Falling [((0 : ℝ), (4 : ℝ)), (10, 3), (20, 1)] ∧ (2 : ℝ) < 4 * 1 ∧
    ∃ r ∈ [((0 : ℝ), (4 : ℝ)), (10, 3), (20, 1)], r.2 * 1 ≤ 2 := by
  refine ⟨?_, by norm_num, (20, 1), by simp, by norm_num⟩
  simp [Spec.Falling]; norm_num

theorem trial_trial (p : Pac m) (x y : Option ℝ × ℝ) (h : y.1.isSome ∨ x.1 = none) :
    (p.trial x.1 x.2).trial y.1 y.2 = p.trial y.1 y.2 := by
  have : ∀ i, y.1.getD ((p.trial x.1 x.2).comp i).C0 = y.1.getD (p.comp i).C0 := by
    intro i
    rcases h with h | h
    · obtain ⟨c, hc⟩ := Option.isSome_iff_exists.1 h
      rw [hc]; rfl
    · rw [h]; rfl
  unfold Pac.trial at this ⊢
  simp only [this]
  rfl

theorem hrtLoop_data (ivp : Ivp nd m) (B : Fin (nd + 1) → Fin (nd + 1) → ℝ) (W : Fin (nd + 1) → ℝ) (tg : ℝ) :
    ∀ (xs : List (Option ℝ × ℝ)) (p : Pac m), ((∀ x ∈ xs, x.1.isSome) ∨ ∀ x ∈ xs, x.1 = none) →
      (hrtLoop ivp B W tg p xs).2 = xs.map fun x => (x, fun i =>
        hrtCell (p.conv i) tg (((p.trial x.1 x.2).run ivp B W).map fun r => (r.1, r.2 i)))
  | [], p, _ => rfl
  | x :: xs, p, h => by
    have h' : (∀ y ∈ xs, y.1.isSome) ∨ ∀ y ∈ xs, y.1 = none := by
      rcases h with h | h
      · exact .inl fun y hy => h y (by simp [hy])
      · exact .inr fun y hy => h y (by simp [hy])
    show (x, _) :: (hrtLoop ivp B W tg (p.trial x.1 x.2) xs).2 = _
    rw [hrtLoop_data ivp B W tg xs _ h', List.map_cons]
    congr 1
    refine List.map_congr_left fun y hy => ?_
    rw [trial_trial p x y (by
      rcases h with h | h
      · exact .inl (h y (by simp [hy]))
      · exact .inr (h x (by simp)))]
    rfl

/-- C79. Each cell of either study comes from the run of the model with that trial's influent and dose for
3000 minutes, the target being converted to ug/L with its own unit, and the effluent with the stated one:
that of the target when nothing else is said, or in the simple study that of the compounds. -/
theorem c79_study (ivp : Ivp nd m) (B : Fin (nd + 1) → Fin (nd + 1) → ℝ) (W : Fin (nd + 1) → ℝ) (p : Pac m)
    {simple : Bool} {target : ℝ} {tu cu : String} {trials : List (Option ℝ × ℝ)} {ft fc : ℝ}
    (ht : (∀ x ∈ trials, x.1.isSome) ∨ ∀ x ∈ trials, x.1 = none)
    (h1 : pacUnit pacConc (lowerStr tu) = .ok ft)
    (h2 : pacUnit pacConc (if lowerStr cu = "same" then lowerStr tu else lowerStr cu) = .ok fc) :
    (p.hrtStudy ivp B W simple target tu cu trials).2 = .ok (trials.map fun x => (x, fun i =>
      let cv := if lowerStr cu = "same" ∧ simple then p.conv i else fc
      hrtCell cv (target * ft)
        ((({ p with duration := 180000 } : Pac m).trial x.1 x.2).run ivp B W |>.map fun r => (r.1, r.2 i)))) := by
  unfold Pac.hrtStudy
  simp only [h1, h2]
  rw [hrtLoop_data ivp B W _ trials _ ht]
  congr 1
  refine List.map_congr_left fun x _ => ?_
  have : (3000 * 60 : ℝ) = 180000 := by norm_num
  refine Prod.ext rfl (funext fun i => ?_)
  simp only [this]
  by_cases hs : lowerStr cu = "same" ∧ simple = true
  · rw [if_pos hs, if_pos hs]
    rfl
  · rw [if_neg hs, if_neg hs]
    rfl

/-! ### C111 -/

/-- C111. A unit that the compounds table accepts for concentrations is accepted as the unit of the target. -/
def C111 : Prop := ∀ (m nd : ℕ) (ivp : Ivp nd m) (B : Fin (nd + 1) → Fin (nd + 1) → ℝ) (W : Fin (nd + 1) → ℝ)
  (p : Pac m) (simple : Bool) (target : ℝ) (trials : List (Option ℝ × ℝ)) (u : String) (f : ℝ),
  pacUnit pacConc u = .ok f → ∃ r, (p.hrtStudy ivp B W simple target u "same" trials).2 = .ok r

/-- What holds: the three short units are, in any letter case, and a refused unit also changes the duration
of the model. -/
theorem c111_partial (ivp : Ivp nd m) (B : Fin (nd + 1) → Fin (nd + 1) → ℝ) (W : Fin (nd + 1) → ℝ)
    (p : Pac m) (simple : Bool) (target : ℝ) (trials : List (Option ℝ × ℝ)) (u : String) :
    (lowerStr u ∈ ["ng", "ug", "mg"] → ∃ r, (p.hrtStudy ivp B W simple target u "same" trials).2 = .ok r) ∧
    (lowerStr u ∉ ["ng", "ug", "mg", "ng/L", "ug/L", "mg/L"] →
      (p.hrtStudy ivp B W simple target u "same" trials).2 = .error .keyError ∧
      (p.hrtStudy ivp B W simple target u "same" trials).1 = { p with duration := 180000 }) := by
  have hs : lowerStr "same" = "same" := by decide
  constructor
  · intro hu
    have : ∃ f, pacUnit pacConc (lowerStr u) = .ok f := by
      simp only [List.mem_cons, List.not_mem_nil, or_false] at hu
      rcases hu with h | h | h <;> rw [h]
      · exact ⟨1e-3, rfl⟩
      · exact ⟨1, rfl⟩
      · exact ⟨1e3, rfl⟩
    obtain ⟨f, hf⟩ := this
    unfold Pac.hrtStudy
    simp only [hs, if_true, hf]
    exact ⟨_, rfl⟩
  · intro hu
    have : pacUnit pacConc (lowerStr u) = .error .keyError := by
      apply pacUnit_none
      intro r hr
      simp only [pacConc, List.mem_cons, List.not_mem_nil, or_false] at hr
      simp only [List.mem_cons, List.not_mem_nil, or_false, not_or] at hu
      rcases hr with rfl | rfl | rfl | rfl | rfl | rfl <;> intro hcon <;> simp_all
    unfold Pac.hrtStudy
    simp only [hs, if_true, this]
    have e : (3000 * 60 : ℝ) = 180000 := by norm_num
    rw [e]
    exact ⟨trivial, rfl⟩

/-- C111 is false: `ug/L` is accepted for compounds and refused for the target. -/
theorem c111_false : ¬ C111 := by
  intro h
  obtain ⟨r, hr⟩ := h 1 0 eulerIvp (fun _ _ => 0) (fun _ => 1 / 3) exPac false 1 [] "ug/L" 1 rfl
  rw [((c111_partial (nd := 0) eulerIvp (fun _ _ => 0) (fun _ => 1 / 3) exPac false 1 [] "ug/L").2
    (by decide)).1] at hr
  simp at hr

end WTM
