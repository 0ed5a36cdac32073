import Mathlib.Tactic.Linarith
import Mathlib.Tactic.NormNum
import Verif.Model.Uncertainty

/-! Properties C38 (ion exchange), C39, C40 (ion exchange), C85: uncertainty analysis. -/
set_option autoImplicit false
namespace WTM

variable {n : ℕ} {ι : Type}

/-! ### Bounds -/
namespace Spec

/-- `lo ≤ · ≤ up` holds for the base and every run, and each bound is one of them. -/
def Encloses (base up lo : ι → ℝ) (rs : List (ι → ℝ)) : Prop :=
  ∀ x, lo x ≤ base x ∧ base x ≤ up x ∧ (∀ r ∈ rs, lo x ≤ r x ∧ r x ≤ up x) ∧
    (up x = base x ∨ ∃ r ∈ rs, up x = r x) ∧ (lo x = base x ∨ ∃ r ∈ rs, lo x = r x)

end Spec

theorem encloses_nil (base : ι → ℝ) : Spec.Encloses base base base [] := by
  intro x; exact ⟨le_rfl, le_rfl, by simp, Or.inl rfl, Or.inl rfl⟩

theorem encloses_step {base up lo : ι → ℝ} {rs : List (ι → ℝ)} (h : Spec.Encloses base up lo rs)
    (r : ι → ℝ) : Spec.Encloses base (fun x => if up x < r x then r x else up x)
      (fun x => if lo x > r x then r x else lo x) (rs ++ [r]) := by
  intro x
  obtain ⟨h1, h2, h3, h4, h5⟩ := h x
  refine ⟨?_, ?_, ?_, ?_, ?_⟩
  · simp only; split <;> linarith
  · simp only; split <;> linarith
  · intro r' hr'
    rcases List.mem_append.1 hr' with h' | h'
    · have := h3 r' h'
      simp only
      constructor <;> split <;> linarith
    · obtain rfl := List.mem_singleton.1 h'
      simp only
      constructor <;> split <;> linarith
  · simp only
    split
    · exact Or.inr ⟨r, by simp, rfl⟩
    · rcases h4 with h4 | ⟨r', hr', h4⟩
      · exact Or.inl h4
      · exact Or.inr ⟨r', by simp [hr'], h4⟩
  · simp only
    split
    · exact Or.inr ⟨r, by simp, rfl⟩
    · rcases h5 with h5 | ⟨r', hr', h5⟩
      · exact Or.inl h5
      · exact Or.inr ⟨r', by simp [hr'], h5⟩

variable {psdm : Bool} {sim : SimIn n → List ℝ → Except PyErr (ι → ℝ)} {copy : IxObj n}
  {tvals : List ℝ}

/-- The run of one test. -/
def RunOf (psdm : Bool) (sim : SimIn n → List ℝ → Except PyErr (ι → ℝ)) (copy : IxObj n)
    (tvals : List ℝ) (test : String × ℝ) (r : ι → ℝ) : Prop :=
  ∃ o, applyKey psdm test.1 test.2 copy = .ok o ∧ runSim sim o tvals = .ok r

theorem uncStep_ok {b b' : (ι → ℝ) × (ι → ℝ)} {test : String × ℝ}
    (h : uncStep psdm sim copy tvals b test = .ok b') :
    ∃ r, RunOf psdm sim copy tvals test r ∧
      b' = (fun x => if b.1 x < r x then r x else b.1 x, fun x => if b.2 x > r x then r x else b.2 x) := by
  unfold uncStep at h
  cases ho : applyKey psdm test.1 test.2 copy with
  | error e => rw [ho] at h; cases h
  | ok o =>
    rw [ho] at h
    cases hr : runSim sim o tvals with
    | error e => simp [hr, bind, Except.bind] at h
    | ok r =>
      refine ⟨r, ⟨o, ho, hr⟩, ?_⟩
      simp [hr, bind, Except.bind, pure, Except.pure] at h
      exact h.symm

theorem fold_encloses (base : ι → ℝ) (tests : List (String × ℝ)) :
    ∀ (b b' : (ι → ℝ) × (ι → ℝ)) (rs : List (ι → ℝ)), Spec.Encloses base b.1 b.2 rs →
      tests.foldlM (uncStep psdm sim copy tvals) b = .ok b' →
      ∃ rs', List.Forall₂ (RunOf psdm sim copy tvals) tests rs' ∧ Spec.Encloses base b'.1 b'.2 (rs ++ rs') := by
  induction tests with
  | nil =>
    intro b b' rs h hf
    simp [pure, Except.pure] at hf
    subst hf
    exact ⟨[], .nil, by simpa using h⟩
  | cons t ts ih =>
    intro b b' rs h hf
    rw [List.foldlM_cons] at hf
    cases hs : uncStep psdm sim copy tvals b t with
    | error e => rw [hs] at hf; cases hf
    | ok b1 =>
      rw [hs] at hf
      obtain ⟨r, hr, rfl⟩ := uncStep_ok hs
      obtain ⟨rs', h1, h2⟩ := ih _ b' (rs ++ [r]) (encloses_step h r) hf
      exact ⟨r :: rs', .cons hr h1, by simpa using h2⟩

/-- C38 (ion exchange). When the analysis returns, the bounds enclose the base run and every perturbed
run (`1 ± p/100` for each keyword given), and are attained; without keywords there are no bounds. -/
theorem c38_ion_exchange {o o' : IxObj n} {inputs : List (String × Option ℝ)} {b : Band ι}
    (h : ixUncertainty psdm sim o inputs = (o', .ok b)) :
    ∃ tv rs, List.Forall₂ (RunOf psdm sim o tv) (uncTests inputs) rs ∧ runSim sim o' tv = .ok b.base ∧
      (uncTests inputs = [] → b.upper = none ∧ b.lower = none) ∧
      (uncTests inputs ≠ [] → ∃ up lo, b.upper = some up ∧ b.lower = some lo ∧
        Spec.Encloses b.base up lo rs) := by
  unfold ixUncertainty at h
  cases hl : o.cin.getLast? with
  | none => rw [hl] at h; cases h
  | some last =>
    rw [hl] at h
    simp only [Prod.mk.injEq] at h
    obtain ⟨rfl, h⟩ := h
    cases hb : runSim sim (uncTimes o last.1).1 (uncTimes o last.1).2 with
    | error e => rw [hb] at h; cases h
    | ok base =>
      rw [hb] at h
      cases hf : (uncTests inputs).foldlM (uncStep psdm sim o (uncTimes o last.1).2) (base, base) with
      | error e => simp [hf, bind, Except.bind] at h
      | ok b' =>
        simp [hf, bind, Except.bind, pure, Except.pure] at h
        obtain ⟨rs, h1, h2⟩ := fold_encloses base (uncTests inputs) (base, base) b' []
          (encloses_nil base) hf
        refine ⟨_, rs, h1, ?_, ?_, ?_⟩
        · rw [hb, ← h]; split <;> rfl
        · intro hn
          rw [← h]; simp [hn]
        · intro hn
          have : 0 < (uncTests inputs).length := List.length_pos_iff.2 hn
          rw [if_pos this] at h
          rw [← h]
          exact ⟨b'.1, b'.2, rfl, rfl, by simpa using h2⟩

/-- Every keyword given is tested at plus and minus its percentage, and nothing else is. -/
theorem c38_tests (inputs : List (String × Option ℝ)) (t : String × ℝ) :
    t ∈ uncTests inputs ↔ ∃ v, (t.1, some v) ∈ inputs ∧ (t.2 = 1 + v / 100 ∨ t.2 = 1 - v / 100) := by
  unfold uncTests
  rw [List.mem_flatMap]
  constructor
  · rintro ⟨kv, hkv, ht⟩
    obtain ⟨k, v⟩ := kv
    cases v with
    | none => simp at ht
    | some v =>
      simp only [List.mem_cons, List.not_mem_nil, or_false] at ht
      rcases ht with rfl | rfl
      · exact ⟨v, hkv, Or.inl rfl⟩
      · exact ⟨v, hkv, Or.inr rfl⟩
  · rintro ⟨v, hv, ht⟩
    refine ⟨(t.1, some v), hv, ?_⟩
    simp only [List.mem_cons, List.not_mem_nil, or_false]
    rcases ht with ht | ht
    · left; exact Prod.ext rfl ht
    · right; exact Prod.ext rfl ht

/-! ### C39 -/

/-- C39, full statement. -/
def LeavesModel : Prop :=
  ∀ (n : ℕ) (ι : Type) (psdm : Bool) (sim : SimIn n → List ℝ → Except PyErr (ι → ℝ)) (o : IxObj n)
    (inputs : List (String × Option ℝ)), (ixUncertainty psdm sim o inputs).1 = o

/-- A one-ion column with influent in days. -/
noncomputable def dayObj : IxObj 1 :=
  { par := fun _ => some 1, names := fun _ => "CHLORIDE", Kxc := fun _ => 1, kL := fun _ => 1,
    Ds := fun _ => 1, Dp := fun _ => 1, cin := [(0, fun _ => 1), (10, fun _ => 1)], timeMult := 86400 }

/-- C39 is false of the code: an influent table in days is left in hours, with the multiplier changed. -/
theorem c39_false : ¬ LeavesModel := by
  intro h
  have h1 := congrArg IxObj.timeMult (h 1 Unit false (fun _ _ => .ok fun _ => 0) dayObj [])
  simp [ixUncertainty, dayObj, uncTimes] at h1

/-- C39, what holds: with a table in hours (multiplier 3600) the object is left as it was, whatever the
outcome. Missing: any other time base, where the influent index is left multiplied by 24, the
multiplier and the stored `time` set to 3600. -/
theorem c39_partial (o : IxObj n) (inputs : List (String × Option ℝ)) (h : o.timeMult = 3600) :
    (ixUncertainty psdm sim o inputs).1 = o := by
  unfold ixUncertainty
  split
  · rfl
  · simp [uncTimes, h]

/-- What is left behind otherwise. -/
theorem c39_other (o : IxObj n) (inputs : List (String × Option ℝ)) (h : o.timeMult ≠ 3600)
    (hc : o.cin ≠ []) :
    let o' := (ixUncertainty psdm sim o inputs).1
    o'.timeMult = 3600 ∧ o'.cin = o.cin.map (fun r => (r.1 * 24, r.2)) ∧ o'.par "time" = some 3600 ∧
      ∀ m, m ≠ "time" → o'.par m = o.par m := by
  intro o'
  have : ∃ last, o.cin.getLast? = some last := by
    cases hl : o.cin.getLast? with
    | none => exact absurd (List.getLast?_eq_none_iff.1 hl) hc
    | some l => exact ⟨l, rfl⟩
  obtain ⟨last, hl⟩ := this
  have e : o' = (uncTimes o last.1).1 := by
    show (ixUncertainty psdm sim o inputs).1 = _
    unfold ixUncertainty; rw [hl]
  rw [e, uncTimes, if_neg h]
  refine ⟨rfl, rfl, by simp, fun m hm => by simp [hm]⟩

/-! ### C40 -/
namespace Spec

/-- Inputs of the simulation with the quantity named by a keyword multiplied by `s` and nothing else
changed. The reference ion's selectivity is fixed. -/
def scaleNamed (key : String) (s : ℝ) (isRef : Fin n → Prop) [DecidablePred isRef] (i : SimIn n) :
    SimIn n :=
  let m := Option.map (fun x : ℝ => x * s)
  match key with
  | "capacity" => { i with Q := m i.Q }
  | "ebed" => { i with EBED := m i.EBED }
  | "epor" => { i with EPOR := m i.EPOR }
  | "ds" => { i with Ds := fun k => i.Ds k * s }
  | "dp" => { i with Dp := fun k => i.Dp k * s }
  | "kL" => { i with kL := fun k => i.kL k * s }
  | "flrt" => { i with v := m i.v }
  | "L" => { i with L := m i.L }
  | "c0" => { i with cin := i.cin.map (fun r => (r.1, fun k => r.2 k * s)) }
  | "Kxc" => { i with Kxc := fun k => if isRef k then i.Kxc k else i.Kxc k * s }
  | _ => i

end Spec

/-- The keywords of the two analyses, hsdmix.py:603, psdmix.py:419-420. -/
def uncKeys (psdm : Bool) : List String :=
  if psdm then ["capacity", "Kxc", "ds", "kL", "dp", "flrt", "c0", "L", "ebed", "epor"]
  else ["capacity", "Kxc", "ds", "kL", "flrt", "c0", "L", "ebed"]

/-- C40 (ion exchange), full statement: every keyword perturbs the quantity it names and nothing else,
for tables whose reference ion CHLORIDE has selectivity 1. -/
def KeywordsNamed : Prop :=
  ∀ (n : ℕ) (psdm : Bool) (o o' : IxObj n) (key : String) (s : ℝ), key ∈ uncKeys psdm →
    (∀ i, o.names i = "CHLORIDE" → o.Kxc i = 1) → applyKey psdm key s o = .ok o' →
    o'.simIn = Spec.scaleNamed key s (fun i => o.names i = "CHLORIDE") o.simIn

theorem scalePar_ok {o o' : IxObj n} {name : String} {s : ℝ} (h : scalePar o name s = .ok o') :
    ∃ x, o.par name = some x ∧
      o' = { o with par := fun m => if m = name then some (x * s) else o.par m } := by
  unfold scalePar at h
  cases hp : o.par name with
  | none => rw [hp] at h; cases h
  | some x => rw [hp] at h; exact ⟨x, rfl, (Except.ok.inj h).symm⟩

/-- C40 is false of the code: `ds`, `kL` and `dp` change rows of the parameter series that the simulation
does not read, so they change nothing. -/
theorem c40_no_effect {o o' : IxObj n} {key : String} {s : ℝ} (hk : key = "ds" ∨ key = "kL" ∨ (key = "dp"))
    (h : applyKey psdm key s o = .ok o') : o'.simIn = o.simIn := by
  have key_scale : ∀ nm : String, nm ≠ "EBED" → nm ≠ "L" → nm ≠ "v" → nm ≠ "nz" → nm ≠ "nr" →
      nm ≠ "rb" → nm ≠ "Q" → nm ≠ "EPOR" → scalePar o nm s = .ok o' → o'.simIn = o.simIn := by
    intro nm h1 h2 h3 h4 h5 h6 h7 h8 hs
    obtain ⟨x, -, rfl⟩ := scalePar_ok hs
    simp [IxObj.simIn, h1.symm, h2.symm, h3.symm, h4.symm, h5.symm, h6.symm, h7.symm, h8.symm]
  unfold applyKey at h
  rcases hk with rfl | rfl | rfl
  · simp only [show ("ds" : String) ≠ "capacity" by decide, show ("ds" : String) ≠ "ebed" by decide,
      show ("ds" : String) ≠ "epor" by decide, if_false, false_and, if_true] at h
    exact key_scale "Ds" (by decide) (by decide) (by decide) (by decide) (by decide) (by decide)
      (by decide) (by decide) h
  · simp only [show ("kL" : String) ≠ "capacity" by decide, show ("kL" : String) ≠ "ebed" by decide,
      show ("kL" : String) ≠ "epor" by decide, show ("kL" : String) ≠ "ds" by decide,
      show ("kL" : String) ≠ "dp" by decide, if_false, false_and, if_true] at h
    exact key_scale "kL" (by decide) (by decide) (by decide) (by decide) (by decide) (by decide)
      (by decide) (by decide) h
  · cases psdm
    · simp at h
      rw [← h]
    · simp only [show ("dp" : String) ≠ "capacity" by decide, show ("dp" : String) ≠ "ebed" by decide,
        show ("dp" : String) ≠ "epor" by decide, show ("dp" : String) ≠ "ds" by decide,
        if_false, false_and, and_self, if_true] at h
      exact key_scale "Dp" (by decide) (by decide) (by decide) (by decide) (by decide) (by decide)
        (by decide) (by decide) h

/-- C40 is false of the code: in `PSDMIX` the keyword `epor` (bead porosity) changes the bed porosity. -/
theorem c40_epor_is_ebed {o : IxObj n} {s : ℝ} :
    applyKey true "epor" s o = applyKey true "ebed" s o := by
  simp [applyKey]

/-- C40 is false of the code. -/
theorem c40_false : ¬ KeywordsNamed := by
  intro h
  have h1 := h 1 false dayObj { dayObj with par := fun m => if m = "Ds" then some (1 * 2) else some 1 }
    "ds" 2 (by simp [uncKeys]) (by intro i _; rfl) (by
      simp [applyKey, scalePar, dayObj])
  have h2 := congrArg (fun t => SimIn.Ds t 0) h1
  simp [IxObj.simIn, Spec.scaleNamed, dayObj] at h2

/-- C40, what holds (ion exchange): capacity, bed porosity, flow, length, influent and selectivity
keywords change exactly the quantity they name. Missing: `ds`, `kL`, `dp`, `epor`. -/
theorem c40_partial {o o' : IxObj n} {key : String} {s : ℝ}
    (hk : key ∈ ["capacity", "ebed", "flrt", "L", "c0", "Kxc"])
    (href : ∀ i, o.names i = "CHLORIDE" → o.Kxc i = 1) (h : applyKey psdm key s o = .ok o') :
    o'.simIn = Spec.scaleNamed key s (fun i => o.names i = "CHLORIDE") o.simIn := by
  simp only [List.mem_cons, List.not_mem_nil, or_false] at hk
  unfold applyKey at h
  rcases hk with rfl | rfl | rfl | rfl | rfl | rfl
  · simp only [if_true] at h
    cases hs : scalePar o "Qf" s with
    | error e => rw [hs] at h; cases h
    | ok o1 =>
      rw [hs] at h
      have h : scalePar o1 "Q" s = .ok o' := h
      obtain ⟨x, -, rfl⟩ := scalePar_ok hs
      obtain ⟨y, hy, rfl⟩ := scalePar_ok h
      simp at hy
      simp [IxObj.simIn, Spec.scaleNamed, hy]
  · simp at h
    obtain ⟨x, hx, rfl⟩ := scalePar_ok h
    simp [IxObj.simIn, Spec.scaleNamed, hx]
  · simp at h
    obtain ⟨x, hx, rfl⟩ := scalePar_ok h
    simp [IxObj.simIn, Spec.scaleNamed, hx]
  · simp at h
    obtain ⟨x, hx, rfl⟩ := scalePar_ok h
    simp [IxObj.simIn, Spec.scaleNamed, hx]
  · simp at h
    rw [← h]
    simp [IxObj.simIn, Spec.scaleNamed]
  · simp at h
    split at h
    · simp at h
      rw [← h]
      simp only [IxObj.simIn, Spec.scaleNamed]
      congr 1
      funext i
      split
      · rw [href i ‹_›]
      · rfl
    · cases h

theorem applyKey_cin {o o1 : IxObj n} {key : String} {v : ℝ} (ho : applyKey psdm key v o = .ok o1) :
    o1.cin.getLast?.map Prod.fst = o.cin.getLast?.map Prod.fst := by
  have hsp : ∀ (o o1 : IxObj n) nm v, scalePar o nm v = .ok o1 → o1.cin = o.cin := by
    intro o o1 nm v hs
    obtain ⟨x, -, rfl⟩ := scalePar_ok hs
    rfl
  unfold applyKey at ho
  by_cases h1 : key = "capacity"
  · rw [if_pos h1] at ho
    cases hs : scalePar o "Qf" v with
    | error e => rw [hs] at ho; cases ho
    | ok o2 =>
      rw [hs] at ho
      have ho : scalePar o2 "Q" v = .ok o1 := ho
      rw [hsp _ _ _ _ ho, hsp _ _ _ _ hs]
  rw [if_neg h1] at ho
  by_cases h1 : key = "ebed"
  · rw [if_pos h1] at ho
    rw [hsp _ _ _ _ ho]
  rw [if_neg h1] at ho
  by_cases h1 : (key = "epor" ∧ psdm)
  · rw [if_pos h1] at ho
    rw [hsp _ _ _ _ ho]
  rw [if_neg h1] at ho
  by_cases h1 : key = "ds"
  · rw [if_pos h1] at ho
    rw [hsp _ _ _ _ ho]
  rw [if_neg h1] at ho
  by_cases h1 : (key = "dp" ∧ psdm)
  · rw [if_pos h1] at ho
    rw [hsp _ _ _ _ ho]
  rw [if_neg h1] at ho
  by_cases h1 : key = "kL"
  · rw [if_pos h1] at ho
    rw [hsp _ _ _ _ ho]
  rw [if_neg h1] at ho
  by_cases h1 : key = "flrt"
  · rw [if_pos h1] at ho
    rw [hsp _ _ _ _ ho]
  rw [if_neg h1] at ho
  by_cases h1 : key = "L"
  · rw [if_pos h1] at ho
    rw [hsp _ _ _ _ ho]
  rw [if_neg h1] at ho
  by_cases h1 : key = "c0"
  · rw [if_pos h1] at ho
    rw [← Except.ok.inj ho, List.getLast?_map, Option.map_map]
    rfl
  rw [if_neg h1] at ho
  by_cases h1 : key = "Kxc"
  · rw [if_pos h1] at ho
    by_cases h2 : ∃ i, o.names i = "CHLORIDE"
    · rw [if_pos h2] at ho
      rw [← Except.ok.inj ho]
    · rw [if_neg h2] at ho
      cases ho
  · rw [if_neg h1] at ho
    rw [← Except.ok.inj ho]

/-! ### C85 -/

/-- C85, full statement: the analysis returns whenever the integration itself does. -/
def WorksInDays : Prop :=
  ∀ (n : ℕ) (ι : Type) (psdm : Bool) (o : IxObj n) (r : ι → ℝ), o.timeMult = 86400 → o.cin ≠ [] →
    (∀ row ∈ o.cin, 0 ≤ row.1) → ∀ inputs, (∀ t ∈ uncTests inputs, ∃ o', applyKey psdm t.1 t.2 o = .ok o') →
    ∃ b, (ixUncertainty psdm (fun _ _ => .ok r) o inputs).2 = .ok b

/-- C85 is false of the code: with influent times in days and a duration of at least one day, the analysis
fails with `ValueError` as soon as one keyword is given: the perturbed copies are still in days while the
evaluation times are in hours. -/
theorem c85_days_fail {o : IxObj n} {inputs : List (String × Option ℝ)} (h : o.timeMult ≠ 3600)
    {last : ℝ × (Fin n → ℝ)} (hl : o.cin.getLast? = some last) (hd : 1 ≤ last.1)
    {t : String × ℝ} (ht : (uncTests inputs).head? = some t) {o1 : IxObj n}
    (ho : applyKey psdm t.1 t.2 o = .ok o1) {base : ι → ℝ}
    (hb : runSim sim (uncTimes o last.1).1 (uncTimes o last.1).2 = .ok base) :
    (ixUncertainty psdm sim o inputs).2 = .error .valueError := by
  have hcin : ∃ last', o1.cin.getLast? = some last' ∧ last'.1 = last.1 := by
    have h1 := applyKey_cin ho
    rw [hl] at h1
    simpa using h1
  have hbad : ¬ timesOk o1.simIn (uncTimes o last.1).2 := by
    intro hok
    obtain ⟨last', hl', e⟩ := hcin
    have hmem : (12 * ((⌈(last.1 * 24 + 1) / 12⌉₊ - 1 : ℕ) : ℝ)) ∈ (uncTimes o last.1).2 := by
      rw [uncTimes, if_neg h]
      unfold arange12
      refine List.mem_map.2 ⟨⌈(last.1 * 24 + 1) / 12⌉₊ - 1, List.mem_range.2 ?_, rfl⟩
      have : 0 < ⌈(last.1 * 24 + 1) / 12⌉₊ := Nat.ceil_pos.2 (by linarith)
      omega
    have h2 := (hok _ hmem).2 last' hl'
    have h3 : 0 < ⌈(last.1 * 24 + 1) / 12⌉₊ := Nat.ceil_pos.2 (by linarith)
    have h4 : (last.1 * 24 + 1) / 12 ≤ (⌈(last.1 * 24 + 1) / 12⌉₊ : ℝ) := Nat.le_ceil _
    rw [Nat.cast_sub h3, e] at h2
    push_cast at h2
    linarith
  have hrun : runSim sim o1 (uncTimes o last.1).2 = .error .valueError := by
    unfold runSim; rw [if_neg hbad]
  obtain ⟨ts, hts⟩ : ∃ ts, uncTests inputs = t :: ts := by
    cases hu : uncTests inputs with
    | nil => rw [hu] at ht; cases ht
    | cons a ts => rw [hu] at ht; exact ⟨ts, by rw [Option.some.inj ht]⟩
  unfold ixUncertainty
  rw [hl]
  simp only [hb, hts, List.foldlM_cons, uncStep, ho, hrun, bind, Except.bind]

theorem c85_false : ¬ WorksInDays := by
  intro h
  obtain ⟨b, hb⟩ := h 1 Unit false dayObj (fun _ => 0) rfl (by simp [dayObj])
    (by intro row hr; simp [dayObj] at hr; rcases hr with rfl | rfl <;> simp)
    [("ebed", some 10)] (by
      intro t ht
      simp only [uncTests, List.flatMap_cons, List.flatMap_nil, List.append_nil, List.mem_cons,
        List.not_mem_nil, or_false] at ht
      rcases ht with rfl | rfl <;> simp [applyKey, scalePar, dayObj])
  have hrun : runSim (ι := Unit) (fun _ _ => .ok fun _ => 0) (uncTimes dayObj 10).1
      (uncTimes dayObj 10).2 = .ok (fun _ => 0) := by
    unfold runSim
    rw [if_pos]
    intro t ht
    rw [uncTimes, if_neg (by simp [dayObj])] at ht ⊢
    simp only [arange12] at ht
    obtain ⟨k, hk, rfl⟩ := List.mem_map.1 ht
    have hk := List.mem_range.1 hk
    refine ⟨by positivity, ?_⟩
    intro last hlast
    simp [IxObj.simIn, dayObj] at hlast
    rw [← hlast]
    have : ⌈((10 : ℝ) * 24 + 1) / 12⌉₊ = 21 := by
      rw [Nat.ceil_eq_iff (by norm_num)]; norm_num
    rw [this] at hk
    have : (k : ℝ) ≤ 20 := by exact_mod_cast (by omega : k ≤ 20)
    simp only; linarith
  have := c85_days_fail (psdm := false) (sim := fun _ _ => .ok fun _ : Unit => (0 : ℝ)) (o := dayObj)
    (inputs := [("ebed", some 10)]) (by simp [dayObj]) (last := (10, fun _ => 1))
    (by simp [dayObj]) (by norm_num) (t := ("ebed", 1 + 10 / 100)) (by simp [uncTests]) (o1 := _)
    (by simp [applyKey, scalePar, dayObj]; rfl) hrun
  rw [this] at hb
  cases hb

theorem times_hours {o : IxObj n} (h : o.timeMult = 3600) {D : ℕ} {o' : IxObj n}
    (ho' : o'.cin.getLast?.map Prod.fst = some (D : ℝ)) :
    timesOk o'.simIn (uncTimes o D).2 := by
  intro t ht
  rw [uncTimes, if_pos h] at ht
  obtain ⟨k, hk, rfl⟩ := List.mem_map.1 ht
  have hk := List.mem_range.1 hk
  refine ⟨by positivity, ?_⟩
  intro l hlast
  have e : l.1 = D := by
    have h1 : o'.cin.getLast? = some l := hlast
    rw [h1] at ho'
    simpa using ho'
  rw [e]
  have h1 := Nat.lt_ceil.1 hk
  rw [lt_div_iff₀ (by norm_num)] at h1
  have h2 : k * 12 < D + 1 := by exact_mod_cast h1
  have : ((12 * k : ℕ) : ℝ) ≤ (D : ℕ) := by exact_mod_cast (by omega : 12 * k ≤ D)
  push_cast at this
  linarith

/-- C85, what holds: with times in hours and a whole number of hours, the analysis returns bounds whenever
every perturbation applies and every integration succeeds. Missing: other time bases and fractional
durations. -/
theorem c85_partial {o : IxObj n} (h : o.timeMult = 3600) {D : ℕ}
    (hl : o.cin.getLast?.map Prod.fst = some (D : ℝ)) (hsim : ∀ s tv, ∃ r, sim s tv = .ok r)
    {inputs : List (String × Option ℝ)}
    (happ : ∀ t ∈ uncTests inputs, ∃ o', applyKey psdm t.1 t.2 o = .ok o') :
    ∃ b, (ixUncertainty psdm sim o inputs).2 = .ok b := by
  have hrun : ∀ o' : IxObj n, o'.cin.getLast?.map Prod.fst = some (D : ℝ) →
      ∃ r, runSim sim o' (uncTimes o D).2 = .ok r := by
    intro o' ho'
    unfold runSim
    rw [if_pos (times_hours h ho')]
    exact hsim _ _
  have hfold : ∀ (ts : List (String × ℝ)), (∀ t ∈ ts, ∃ o', applyKey psdm t.1 t.2 o = .ok o') →
      ∀ b0, ∃ b, ts.foldlM (uncStep psdm sim o (uncTimes o D).2) b0 = .ok b := by
    intro ts
    induction ts with
    | nil => intro _ b0; exact ⟨b0, rfl⟩
    | cons t ts ih =>
      intro hts b0
      obtain ⟨o1, h1⟩ := hts t (by simp)
      obtain ⟨r, hr⟩ := hrun o1 (by rw [applyKey_cin h1, hl])
      obtain ⟨b, hb⟩ := ih (fun t' ht' => hts t' (by simp [ht']))
        (fun x => if b0.1 x < r x then r x else b0.1 x, fun x => if b0.2 x > r x then r x else b0.2 x)
      refine ⟨b, ?_⟩
      rw [List.foldlM_cons]
      simp only [uncStep, h1, hr, bind, Except.bind, pure, Except.pure]
      exact hb
  unfold ixUncertainty
  cases hl' : o.cin.getLast? with
  | none => rw [hl'] at hl; cases hl
  | some last =>
    rw [hl'] at hl
    have e : last.1 = D := by simpa using hl
    have e1 : (uncTimes o D).1 = o := by simp [uncTimes, h]
    obtain ⟨r, hr⟩ := hrun o (by rw [hl']; simpa using e)
    obtain ⟨b, hb⟩ := hfold (uncTests inputs) happ (r, r)
    simp only [e, e1, hr, hb, bind, Except.bind, pure, Except.pure]
    exact ⟨_, rfl⟩

/-- A run in hours for which the analysis returns bounds. -/
example : ∃ (o : IxObj 1) (b : Band Unit), o.timeMult = 3600 ∧ o.cin.length = 2 ∧
    (ixUncertainty false (fun s _ => .ok fun _ => (s.EBED.getD 0)) o [("ebed", some 10)]).2 = .ok b ∧
    b.upper ≠ none := by
  let o : IxObj 1 := { dayObj with timeMult := 3600 }
  obtain ⟨b, hb⟩ := c85_partial (psdm := false) (o := o) (D := 10)
    (sim := fun s _ => .ok fun _ : Unit => (s.EBED.getD 0)) rfl (by simp [o, dayObj])
    (fun s _ => ⟨_, rfl⟩) (inputs := [("ebed", some 10)]) (by
      intro t ht
      simp only [uncTests, List.flatMap_cons, List.flatMap_nil, List.append_nil, List.mem_cons,
        List.not_mem_nil, or_false] at ht
      rcases ht with rfl | rfl <;> simp [applyKey, scalePar, o, dayObj])
  refine ⟨o, b, rfl, rfl, hb, ?_⟩
  obtain ⟨tv, rs, -, -, -, h⟩ := c38_ion_exchange (Prod.ext (Eq.refl (ixUncertainty false
    (fun s _ => .ok fun _ : Unit => (s.EBED.getD 0)) o [("ebed", some 10)]).1) hb)
  obtain ⟨up, lo, hup, -⟩ := h (by simp [uncTests])
  rw [hup]; simp

end WTM
