import Mathlib.Tactic.Linarith
import Mathlib.Tactic.FieldSimp
import Mathlib.Tactic.NormNum
import Mathlib.Tactic.Ring
import Mathlib.Tactic.Positivity
import Verif.Model.GacState
import Verif.Props.GacColumn

/-! Properties C51, C55 and C83: the carbon column object, single-compound runs and the error of a fit. -/
set_option autoImplicit false
namespace WTM

/-! ### C55 -/

/-- C55. Hydraulics: contact time, velocity and residence time agree with the flow and the bed volume. -/
theorem c55_hydraulics {dw vw : ℝ} {g : Geom} (hd : g.diam ≠ 0) (hf : g.flrt ≠ 0) :
    g.flrt * (derive dw vw g).ebct = (derive dw vw g).bedvol ∧
    (derive dw vw g).bedvol = Real.pi * (g.diam / 2) ^ 2 * g.L ∧
    (derive dw vw g).vs * (derive dw vw g).area * 60 = g.flrt ∧
    (derive dw vw g).tau = 60 * (derive dw vw g).ebed * (derive dw vw g).ebct ∧
    (derive dw vw g).re * ((derive dw vw g).ebed * vw) = 
      if (derive dw vw g).ebed * vw = 0 then 0 else 2 * g.rad * (derive dw vw g).vs * dw := by
  have hp := Real.pi_ne_zero
  refine ⟨?_, ?_, ?_, ?_, ?_⟩
  · simp only [derive]; field_simp
  · simp only [derive]; ring
  · simp only [derive]; field_simp
  · simp only [derive]; field_simp
  · split
    · rename_i h; rw [h, mul_zero]
    · rename_i h
      show (2 * g.rad * (derive dw vw g).vs * dw / ((derive dw vw g).ebed * vw)) * _ = _
      rw [div_mul_cancel₀ _ h]

/-- C55. The void fraction is strictly between 0 and 1 exactly when the apparent density of the bed is
strictly between 0 and the particle density; the solid it leaves is the carbon's. -/
theorem c55_void {dw vw : ℝ} {g : Geom} (hv : 0 < (derive dw vw g).bedvol) (hr : 0 < g.rhop) :
    ((0 < (derive dw vw g).ebed ∧ (derive dw vw g).ebed < 1) ↔
      (0 < g.wt / (derive dw vw g).bedvol ∧ g.wt / (derive dw vw g).bedvol < g.rhop)) ∧
    (1 - (derive dw vw g).ebed) * (derive dw vw g).bedvol * g.rhop = g.wt := by
  have e : (derive dw vw g).ebed = 1 - g.wt / ((derive dw vw g).bedvol * g.rhop) := rfl
  rw [e]
  set V := (derive dw vw g).bedvol
  have hVr : 0 < V * g.rhop := mul_pos hv hr
  refine ⟨?_, by field_simp; ring⟩
  rw [div_lt_iff₀ hv, lt_div_iff₀ hv, sub_pos, div_lt_one hVr, sub_lt_self_iff, lt_div_iff₀ hVr, zero_mul,
    zero_mul, mul_comm g.rhop]
  exact and_comm

/-- C55. Resetting recomputes them from the stored inputs. -/
theorem c55_reset (o : GacObj) : (resetColumn o).der = derive o.dw o.vw (resetColumn o).core.geom := rfl

/-- A bed of 1 m by 0.1 m: the hypotheses are met. -/
example : 0 < (derive 1 1 ⟨100, 10, 1, 1, 1, 1, 1, 1, 1, 1⟩).bedvol := by
  simp only [derive]
  have := Real.pi_pos
  positivity

/-! ### C51 -/

/-- The object is as its backups describe: what `__init__` leaves (PSDM.py:192-219, 352), and what every
reset leaves. -/
def Spec.Clean (o : GacObj) : Prop := o.core = o.bup ∧ o.der = derive o.dw o.vw o.core.geom

/-- Everything a fit never touches. -/
def Spec.SameRest (o o' : GacObj) : Prop :=
  o'.bup = o.bup ∧ o'.dw = o.dw ∧ o'.vw = o.vw ∧ o'.testRange = o.testRange ∧ o'.xnRange = o.xnRange ∧
    o'.kInputList = o.kInputList ∧ o'.xnDefault = o.xnDefault ∧ o'.kByXn = o.kByXn

theorem KTab.set_set (t : KTab) (c : String) (k x k' x' : ℝ) :
    (t.set c k x).set c k' x' = t.set c k' x' := by
  funext c'
  unfold KTab.set
  by_cases h : c' = c
  · simp only [if_pos h, if_true]
  · simp only [if_neg h]

theorem KTab.set_self (t : KTab) (c : String) : t.set c (t c).K (t c).xn = t := by
  funext c'
  unfold KTab.set
  by_cases h : c' = c
  · rw [if_pos h, h]
  · rw [if_neg h]

/-- The two agree except for the `K` and `1/n` of one compound. -/
def Spec.SameButK (c : String) (a b : Core) : Prop := ∃ k x, b = { a with kData := a.kData.set c k x }

theorem SameButK.refl (c : String) (a : Core) : Spec.SameButK c a a :=
  ⟨(a.kData c).K, (a.kData c).xn, by rw [KTab.set_self]⟩

theorem SameButK.trans {c : String} {a b d : Core} (h1 : Spec.SameButK c a b) (h2 : Spec.SameButK c b d) :
    Spec.SameButK c a d := by
  obtain ⟨k, x, rfl⟩ := h1
  obtain ⟨k', x', rfl⟩ := h2
  exact ⟨k', x', by simp only [KTab.set_set]⟩

theorem SameRest.trans {a b c : GacObj} (h1 : Spec.SameRest a b) (h2 : Spec.SameRest b c) :
    Spec.SameRest a c := by
  obtain ⟨a1, a2, a3, a4, a5, a6, a7, a8⟩ := h1
  obtain ⟨b1, b2, b3, b4, b5, b6, b7, b8⟩ := h2
  exact ⟨b1.trans a1, b2.trans a2, b3.trans a3, b4.trans a4, b5.trans a5, b6.trans a6, b7.trans a7, b8.trans a8⟩

theorem SameRest.refl (o : GacObj) : Spec.SameRest o o := ⟨rfl, rfl, rfl, rfl, rfl, rfl, rfl, rfl⟩

theorem kfitGrid_rest (S : Sim) (c : String) (obs : ℝ → ℝ) (brk : ℝ) (kMult : ℝ → ℝ) :
    ∀ (l : List (ℝ × ℝ)) (o : GacObj) (acc : List (ℝ × ℝ × ℝ)),
      Spec.SameRest o (kfitGrid S c obs brk kMult l o acc).2 ∧
      (kfitGrid S c obs brk kMult l o acc).2.optimize = o.optimize ∧
      (kfitGrid S c obs brk kMult l o acc).2.der = o.der ∧
      Spec.SameButK c o.core (kfitGrid S c obs brk kMult l o acc).2.core
  | [], o, acc => ⟨SameRest.refl o, rfl, rfl, SameButK.refl c _⟩
  | (i, x) :: rest, o, acc => by
    simp only [kfitGrid, runPsdm]
    split
    · rename_i e o2 h
      simp only [Prod.mk.injEq] at h
      obtain ⟨-, rfl⟩ := h
      exact ⟨SameRest.refl o, rfl, rfl, _, _, rfl⟩
    · rename_i res o2 h
      simp only [Prod.mk.injEq] at h
      obtain ⟨-, rfl⟩ := h
      obtain ⟨h1, h2, h3, h4⟩ := kfitGrid_rest S c obs brk kMult rest _ _
      exact ⟨SameRest.trans (SameRest.refl o) h1, h2, h3, SameButK.trans ⟨_, _, rfl⟩ h4⟩

/-- What one of the three branches does to the object: on success everything is back from the backups, on an
exception only the compound's own `K` and `1/n` may differ. -/
def BranchOk (c : String) (o : GacObj) (r : Except PyErr KfitOut × GacObj) : Prop :=
  Spec.SameRest o r.2 ∧ r.2.optimize = o.optimize ∧
  ((∃ out, r.1 = .ok out) → r.2.core = o.bup ∧ r.2.der = derive o.dw o.vw o.bup.geom) ∧
  ((∃ e, r.1 = .error e) → r.2.der = o.der ∧ Spec.SameButK c o.core r.2.core)

theorem reset_core {o o' : GacObj} (h : Spec.SameRest o o') :
    (resetColumn o').core = o.bup ∧ (resetColumn o').der = derive o.dw o.vw o.bup.geom := by
  obtain ⟨h1, h2, h3, -⟩ := h
  refine ⟨h1, ?_⟩
  show derive o'.dw o'.vw o'.bup.geom = _
  rw [h1, h2, h3]

theorem kfitOpt_ok (S : Sim) (c : String) (obs : ℝ → ℝ) (o : GacObj) :
    BranchOk c o (kfitOpt S c obs o) := by
  have hr := kfitGrid_rest S c obs (o.core.kData c).brk (kMultOf o c)
      (o.testRange.flatMap fun i => o.xnRange.map fun x => (i, x)) o []
  unfold kfitOpt
  split
  · rename_i e o3 h
    rw [h] at hr
    exact ⟨hr.1, hr.2.1, fun ⟨_, h⟩ => (by cases h), fun _ => ⟨hr.2.2.1, hr.2.2.2⟩⟩
  · rename_i rows o3 h
    rw [h] at hr
    exact ⟨hr.1, hr.2.1, fun _ => reset_core hr.1, fun ⟨_, h⟩ => (by cases h)⟩

theorem kfitList_ok (S : Sim) (c : String) (obs : ℝ → ℝ) (o : GacObj) :
    BranchOk c o (kfitList S c obs o) := by
  unfold kfitList
  simp only [runPsdm]
  split
  · rename_i h
    simp only [Prod.mk.injEq] at h
    obtain ⟨-, rfl⟩ := h
    exact ⟨SameRest.refl o, rfl, fun ⟨_, h⟩ => (by cases h), fun _ => ⟨rfl, _, _, rfl⟩⟩
  · rename_i h
    simp only [Prod.mk.injEq] at h
    obtain ⟨-, rfl⟩ := h
    exact ⟨SameRest.refl o, rfl, fun _ => ⟨rfl, rfl⟩, fun ⟨_, h⟩ => (by cases h)⟩

theorem kfitPlain_ok (S : Sim) (c : String) (obs : ℝ → ℝ) (o : GacObj) :
    BranchOk c o (kfitPlain S c obs o) := by
  unfold kfitPlain
  simp only [runPsdm]
  split
  · rename_i h
    simp only [Prod.mk.injEq] at h
    obtain ⟨-, rfl⟩ := h
    exact ⟨SameRest.refl o, rfl, fun ⟨_, h⟩ => (by cases h), fun _ => ⟨rfl, SameButK.refl c _⟩⟩
  · rename_i h
    simp only [Prod.mk.injEq] at h
    obtain ⟨-, rfl⟩ := h
    exact ⟨SameRest.refl o, rfl, fun _ => ⟨rfl, rfl⟩, fun ⟨_, h⟩ => (by cases h)⟩

theorem kfitBody_ok (S : Sim) (c : String) (obs : ℝ → ℝ) (o : GacObj) :
    BranchOk c o (kfitBody S c obs o) := by
  unfold kfitBody
  split
  · exact kfitOpt_ok S c _ _
  · split
    · exact kfitList_ok S c _ _
    · exact kfitPlain_ok S c _ _

theorem kfitFlag_rest (o : GacObj) : Spec.SameRest o (kfitFlag o) ∧ (kfitFlag o).core = o.core ∧
    (kfitFlag o).der = o.der ∧ (kfitFlag o).optimize = (if oneTrial o then false else o.optimize) := by
  unfold kfitFlag
  split
  · exact ⟨SameRest.refl o, rfl, rfl, rfl⟩
  · exact ⟨SameRest.refl o, rfl, rfl, rfl⟩

theorem toSingle_eff (o : GacObj) (c : String) : (toSingle o c).core.data.eff c = o.bup.data.eff c := by
  show (if c = c then _ else _) = _
  rw [if_pos rfl]

/-- What a single-compound run does to the object. -/
theorem runKfit_ok (S : Sim) (o : GacObj) (c : String) :
    Spec.SameRest o (runKfit S o c).2 ∧
    (runKfit S o c).2.optimize = (if oneTrial o ∧ o.bup.data.eff c ≠ none then false else o.optimize) ∧
    ((∃ out, (runKfit S o c).1 = .ok out) → (runKfit S o c).2.core = o.bup ∧
      (runKfit S o c).2.der = derive o.dw o.vw o.bup.geom) ∧
    ((∃ e, (runKfit S o c).1 = .error e) → (runKfit S o c).2.der = o.der ∧
      Spec.SameButK c (toSingle o c).core (runKfit S o c).2.core) := by
  unfold runKfit
  split
  · rename_i h
    rw [toSingle_eff] at h
    refine ⟨SameRest.refl o, ?_, fun ⟨_, h⟩ => (by cases h), fun _ => ⟨rfl, SameButK.refl c _⟩⟩
    rw [if_neg (fun hh => hh.2 h)]
    rfl
  · rename_i tab h
    rw [toSingle_eff] at h
    obtain ⟨f1, f2, f3, f4⟩ := kfitFlag_rest (toSingle o c)
    obtain ⟨b1, b2, b3, b4⟩ := kfitBody_ok S c (interpExtrap tab) (kfitFlag (toSingle o c))
    have hrest : Spec.SameRest o (kfitFlag (toSingle o c)) := SameRest.trans (SameRest.refl o) f1
    refine ⟨SameRest.trans hrest b1, ?_, fun hh => ?_, fun hh => ?_⟩
    · rw [b2, f4]
      have : oneTrial (toSingle o c) ↔ oneTrial o ∧ o.bup.data.eff c ≠ none :=
        ⟨fun hh => ⟨hh, by rw [h]; simp⟩, fun hh => hh.1⟩
      by_cases h1 : oneTrial (toSingle o c)
      · rw [if_pos h1, if_pos (this.1 h1)]
      · rw [if_neg h1, if_neg (fun hh => h1 (this.2 hh))]; rfl
    · obtain ⟨x1, x2⟩ := b3 hh
      obtain ⟨r1, r2, r3, -⟩ := hrest
      exact ⟨x1.trans r1, by rw [x2, r1, r2, r3]⟩
    · obtain ⟨x1, x2⟩ := b4 hh
      rw [f2] at x2
      exact ⟨x1.trans f3, x2⟩

/-- C51. After a single-compound run that returns, geometry, derived values, data, isotherm table, compound
list, shapes and mass transfer are those stored; only the record of coefficients used and, for a single
trial, the optimise flag may differ. -/
theorem c51_restored {S : Sim} {o o' : GacObj} {c : String} {out : KfitOut} (hc : Spec.Clean o)
    (h : runKfit S o c = (.ok out, o')) :
    { o' with mtData := o.mtData, optimize := o.optimize } = o ∧
    (¬ oneTrial o → o'.optimize = o.optimize) := by
  obtain ⟨⟨r1, r2, r3, r4, r5, r6, r7, r8⟩, h2, h3, -⟩ := runKfit_ok S o c
  rw [h] at r1 r2 r3 r4 r5 r6 r7 r8 h2 h3
  obtain ⟨h5, h6⟩ := h3 ⟨out, rfl⟩
  obtain ⟨hc1, hc2⟩ := hc
  simp only at h5 h6 h2 r1 r2 r3 r4 r5 r6 r7 r8
  refine ⟨?_, fun hn => ?_⟩
  · cases o; cases o'
    simp only [GacObj.mk.injEq, true_and] at *
    subst hc1
    exact ⟨h5, by rw [h6, hc2], r1, r2, r3, r4, r5, r6, r7, r8⟩
  · rw [h2, if_neg (fun hh => hn hh.1)]

/-- C51. And it is clean again. -/
theorem c51_clean {S : Sim} {o o' : GacObj} {c : String} {out : KfitOut}
    (h : runKfit S o c = (.ok out, o')) : Spec.Clean o' := by
  obtain ⟨⟨r1, r2, r3, -⟩, -, h3, -⟩ := runKfit_ok S o c
  rw [h] at h3 r1 r2 r3
  obtain ⟨h5, h6⟩ := h3 ⟨out, rfl⟩
  simp only at h5 h6 r1 r2 r3
  exact ⟨h5.trans r1.symm, by rw [h6, h5, r2, r3]⟩

/-! The result does not depend on the recorded coefficients. -/

theorem kfitGrid_mt (S : Sim) (c : String) (obs : ℝ → ℝ) (brk : ℝ) (kMult : ℝ → ℝ) (m : MtTab) :
    ∀ (l : List (ℝ × ℝ)) (o : GacObj) (acc : List (ℝ × ℝ × ℝ)),
      (kfitGrid S c obs brk kMult l { o with mtData := m } acc).1 = (kfitGrid S c obs brk kMult l o acc).1
  | [], o, acc => rfl
  | (i, x) :: rest, o, acc => by
    simp only [kfitGrid, runPsdm]

theorem kfitOpt_fst (S : Sim) (c : String) (obs : ℝ → ℝ) (o : GacObj) :
    (kfitOpt S c obs o).1 = ((kfitGrid S c obs (o.core.kData c).brk (kMultOf o c)
      (o.testRange.flatMap fun i => o.xnRange.map fun x => (i, x)) o []).1).map
        (fun rows => ⟨1, o.xnRange.getLastD 1, rows, fun _ => 0⟩) := by
  unfold kfitOpt
  split
  · rename_i h; rw [h]; rfl
  · rename_i h; rw [h]; rfl

theorem kfitBody_mt (S : Sim) (c : String) (obs : ℝ → ℝ) (p : GacObj) (m : MtTab) :
    (kfitBody S c obs { p with mtData := m }).1 = (kfitBody S c obs p).1 := by
  unfold kfitBody
  by_cases h1 : p.optimize = true
  · rw [if_pos h1, if_pos h1, kfitOpt_fst, kfitOpt_fst]
    exact congrArg _ (kfitGrid_mt S c obs (p.core.kData c).brk (kMultOf p c) m
      (p.testRange.flatMap fun i => p.xnRange.map fun x => (i, x)) p [])
  · rw [if_neg h1, if_neg h1]
    by_cases h2 : p.kInputList = true ∧ oneTrial p
    · rw [if_pos h2, if_pos (show p.kInputList = true ∧ oneTrial { p with mtData := m } from h2)]
      unfold kfitList
      simp only [runPsdm]
    · rw [if_neg h2, if_neg (show ¬ (p.kInputList = true ∧ oneTrial { p with mtData := m }) from h2)]
      unfold kfitPlain
      simp only [runPsdm]

theorem runKfit_mt (S : Sim) (o : GacObj) (c : String) (m : MtTab) :
    (runKfit S { o with mtData := m } c).1 = (runKfit S o c).1 := by
  have hflag : kfitFlag (toSingle { o with mtData := m } c) = { kfitFlag (toSingle o c) with mtData := m } := by
    unfold kfitFlag
    by_cases h : oneTrial (toSingle o c)
    · rw [if_pos h, if_pos (show oneTrial (toSingle { o with mtData := m } c) from h)]; rfl
    · rw [if_neg h, if_neg (show ¬ oneTrial (toSingle { o with mtData := m } c) from h)]; rfl
  unfold runKfit
  rw [toSingle_eff, toSingle_eff, hflag]
  show (match o.bup.data.eff c with
    | none => (_ : Except PyErr KfitOut × GacObj) | some tab => _).1 = _
  cases o.bup.data.eff c with
  | none => rfl
  | some tab => exact kfitBody_mt S c _ _ m

theorem runKfit_flag (S : Sim) (o : GacObj) (c : String) (h : oneTrial o) (b : Bool) :
    (runKfit S { o with optimize := b } c).1 = (runKfit S o c).1 := by
  have hflag : kfitFlag (toSingle { o with optimize := b } c) = kfitFlag (toSingle o c) := by
    unfold kfitFlag
    rw [if_pos (show oneTrial (toSingle o c) from h),
      if_pos (show oneTrial (toSingle { o with optimize := b } c) from h)]; rfl
  unfold runKfit
  rw [toSingle_eff, toSingle_eff, hflag]
  show (match o.bup.data.eff c with
    | none => (_ : Except PyErr KfitOut × GacObj) | some tab => _).1 = _
  cases o.bup.data.eff c <;> rfl

/-- C51. Running the same compound again gives the same result. -/
theorem c51_again {S : Sim} {o o' : GacObj} {c : String} {out : KfitOut} (hc : Spec.Clean o)
    (h : runKfit S o c = (.ok out, o')) : (runKfit S o' c).1 = .ok out := by
  obtain ⟨h1, h2⟩ := c51_restored hc h
  have e : (runKfit S { o' with mtData := o.mtData, optimize := o.optimize } c).1 = .ok out := by
    rw [h1, h]
  rw [show ({ o' with mtData := o.mtData, optimize := o.optimize } : GacObj) =
    { { o' with optimize := o.optimize } with mtData := o.mtData } from rfl, runKfit_mt] at e
  by_cases ho : oneTrial o
  · have ho' : oneTrial o' := by
      obtain ⟨⟨-, -, -, r4, r5, -⟩, -⟩ := runKfit_ok S o c
      rw [h] at r4 r5
      unfold oneTrial
      rw [show o'.testRange = o.testRange from r4, show o'.xnRange = o.xnRange from r5]
      exact ho
    rwa [runKfit_flag S o' c ho'] at e
  · rw [← h2 ho] at e
    exact e

/-- C51, sequences of calls: after any sequence of single-compound runs that return, the object is the
original one except for the record of coefficients and the optimise flag, and any further run gives what it
would have given at the start. -/
noncomputable def runMany (S : Sim) : List String → GacObj → Option GacObj
  | [], o => some o
  | c :: rest, o =>
    match runKfit S o c with
    | (.ok _, o') => runMany S rest o'
    | (.error _, _) => none

theorem c51_sequence {S : Sim} : ∀ {l : List String} {o o' : GacObj}, Spec.Clean o →
    runMany S l o = some o' →
    { o' with mtData := o.mtData, optimize := o.optimize } = o ∧ Spec.Clean o' ∧
    ∀ c, (runKfit S o' c).1 = (runKfit S o c).1
  | [], o, o', hc, h => by
    simp only [runMany, Option.some.injEq] at h
    subst h
    exact ⟨rfl, hc, fun _ => rfl⟩
  | d :: rest, o, o', hc, h => by
    simp only [runMany] at h
    split at h
    · rename_i out o1 hd
      obtain ⟨h1, h2⟩ := c51_restored hc hd
      obtain ⟨h3, h4, h5⟩ := c51_sequence (c51_clean hd) h
      have e : o1 = { o with mtData := o1.mtData, optimize := o1.optimize } := by
        rw [← h1]
      refine ⟨?_, h4, fun c => ?_⟩
      · have : { o' with mtData := o.mtData, optimize := o.optimize } =
          { { o' with mtData := o1.mtData, optimize := o1.optimize } with
            mtData := o.mtData, optimize := o.optimize } := rfl
        rw [this, h3, h1]
      · rw [h5 c, e]
        by_cases ho : oneTrial o
        · rw [show ({ o with mtData := o1.mtData, optimize := o1.optimize } : GacObj) =
            { { o with mtData := o1.mtData } with optimize := o1.optimize } from rfl,
            runKfit_flag S { o with mtData := o1.mtData } c ho, runKfit_mt]
        · rw [h2 ho]
          exact runKfit_mt S o c _
    · cases h

/-- C51, limit of the claim: a run that raises leaves the object restricted to the one compound. -/
theorem c51_exception {S : Sim} {o o' : GacObj} {c : String} {e : PyErr}
    (h : runKfit S o c = (.error e, o')) : o'.core.compounds = [c] ∧ o'.bup = o.bup := by
  obtain ⟨⟨r1, -⟩, -, -, h4⟩ := runKfit_ok S o c
  rw [h] at h4 r1
  obtain ⟨-, k, x, h5⟩ := h4 ⟨e, rfl⟩
  simp only at h5 r1
  rw [h5]
  exact ⟨rfl, r1⟩

/-! ### C83 -/

theorem sum_sq_zero (f : ℕ → ℝ) (N : ℕ) :
    0 ≤ ((List.range N).map (fun k : ℕ => f k ^ 2)).sum ∧
    (((List.range N).map (fun k : ℕ => f k ^ 2)).sum = 0 ↔ ∀ k, k < N → f k = 0) := by
  induction N with
  | zero => simp
  | succ N ih =>
    rw [List.range_succ, List.map_append, List.sum_append]
    simp only [List.map_cons, List.map_nil, List.sum_cons, List.sum_nil, add_zero]
    have hsq : 0 ≤ f N ^ 2 := sq_nonneg _
    refine ⟨by linarith [ih.1], ?_⟩
    constructor
    · intro h k hk
      have h1 : f N ^ 2 = 0 := by linarith [ih.1]
      have h2 : ((List.range N).map (fun k : ℕ => f k ^ 2)).sum = 0 := by linarith [ih.1]
      rcases Nat.lt_succ_iff_lt_or_eq.1 hk with h3 | h3
      · exact ih.2.1 h2 k h3
      · rw [h3]; exact pow_eq_zero_iff (two_ne_zero) |>.1 h1
    · intro h
      rw [ih.2.2 (fun k hk => h k (Nat.lt_succ_of_lt hk)), h N (Nat.lt_succ_self N)]
      norm_num

/-- C83. The error is nonnegative, and zero exactly when simulated and observed values agree at every whole
time before breakthrough. -/
theorem c83_ssq (brk : ℝ) (sim obs : ℝ → ℝ) :
    0 ≤ ssqOf brk sim obs ∧ (ssqOf brk sim obs = 0 ↔ ∀ k : ℕ, (k : ℝ) < brk → sim k = obs k) := by
  have h := sum_sq_zero (fun k : ℕ => sim k - obs k) ⌈brk⌉₊
  unfold ssqOf
  refine ⟨h.1, h.2.trans ?_⟩
  constructor
  · intro hh k hk
    exact sub_eq_zero.1 (hh k (Nat.lt_ceil.2 hk))
  · intro hh k hk
    exact sub_eq_zero.2 (hh k (Nat.lt_ceil.1 hk))

/-- C83. The error is the sum of the squared deviations. -/
theorem c83_sum (brk : ℝ) (sim obs : ℝ → ℝ) :
    ssqOf brk sim obs = ∑ k ∈ Finset.range ⌈brk⌉₊, (sim k - obs k) ^ 2 := by
  unfold ssqOf
  induction ⌈brk⌉₊ with
  | zero => simp
  | succ N ih =>
    rw [List.range_succ, List.map_append, List.sum_append, ih, Finset.sum_range_succ]
    simp

/-- The simulation of one compound with given `K` and `1/n`: column and mass transfer as they are, data of
that compound only. -/
def Spec.trialCurve (S : Sim) (o : GacObj) (c : String) (K x : ℝ) : Except PyErr (String → ℝ → ℝ) :=
  (S { geom := o.core.geom
       kData := fun c' => if c' = c then ⟨K, x, (o.core.kData c).q, (o.core.kData c).brk, (o.core.kData c).aveC⟩
         else o.core.kData c'
       data := ⟨fun c' => if c' = c then o.bup.data.infl c' else none,
         fun c' => if c' = c then o.bup.data.eff c' else none⟩
       compounds := [c], numComps := 1, jac := 1, shape := 1, mt := o.core.mt } o.der).1

/-- Its squared deviation from the observed curve at the whole times before breakthrough. -/
def Spec.IsTrialError (S : Sim) (o : GacObj) (c : String) (tab : List (ℝ × ℝ)) (K x e : ℝ) : Prop :=
  ∃ res, Spec.trialCurve S o c K x = .ok res ∧
    e = ∑ k ∈ Finset.range ⌈(o.core.kData c).brk⌉₊, (res c k - interpExtrap tab k) ^ 2

theorem kfitGrid_rows {S : Sim} {c : String} {obs : ℝ → ℝ} {brk : ℝ} {kMult : ℝ → ℝ} (o0 : GacObj) :
    ∀ {l : List (ℝ × ℝ)} {o o' : GacObj} {acc rows : List (ℝ × ℝ × ℝ)},
      o.der = o0.der → Spec.SameButK c o0.core o.core →
      kfitGrid S c obs brk kMult l o acc = (.ok rows, o') →
      rows.map (fun t => (t.1, t.2.1)) = acc.map (fun t => (t.1, t.2.1)) ++ l ∧
      ((∀ t ∈ acc, ∃ res, (S { o0.core with kData := o0.core.kData.set c (kMult t.2.1 * t.1) t.2.1 } o0.der).1 =
        .ok res ∧ t.2.2 = ssqOf brk (res c) obs) →
      ∀ t ∈ rows, ∃ res, (S { o0.core with kData := o0.core.kData.set c (kMult t.2.1 * t.1) t.2.1 } o0.der).1 =
        .ok res ∧ t.2.2 = ssqOf brk (res c) obs)
  | [], o, o', acc, rows, hd, hk, h => by
    simp only [kfitGrid, Prod.mk.injEq, Except.ok.injEq] at h
    obtain ⟨rfl, -⟩ := h
    exact ⟨by simp, id⟩
  | (i, x) :: rest, o, o', acc, rows, hd, hk, h => by
    simp only [kfitGrid, runPsdm] at h
    split at h
    · simp at h
    · rename_i res o2 h2
      simp only [Prod.mk.injEq] at h2
      obtain ⟨h2, rfl⟩ := h2
      obtain ⟨g1, g2⟩ := kfitGrid_rows o0 (o := { o with
        core := { o.core with kData := o.core.kData.set c (kMult x * i) x }, mtData := _ }) hd
        (SameButK.trans hk ⟨_, _, rfl⟩) h
      refine ⟨by rw [g1]; simp, fun ha => g2 (fun t ht => ?_)⟩
      rcases List.mem_append.1 ht with h3 | h3
      · exact ha t h3
      · rw [List.mem_singleton.1 h3]
        refine ⟨res, ?_, rfl⟩
        rw [← h2]
        obtain ⟨k', x', hk⟩ := hk
        rw [hk, hd]
        simp only [KTab.set_set]

theorem trialCurve_set (S : Sim) (o : GacObj) (c : String) (K x : ℝ) :
    Spec.trialCurve S o c K x =
      (S { (toSingle o c).core with kData := (toSingle o c).core.kData.set c K x } (toSingle o c).der).1 := rfl

/-- C83. The multiple for an exponent is the K that has the capacity of the table at the same concentration; a stored
function of the exponent takes its place. -/
theorem c83_mult (o : GacObj) (c : String) (x : ℝ) :
    (∀ f, o.kByXn c = some f → kMultOf o c x = f x) ∧
      (o.kByXn c = none → ∀ C, 0 < C → 0 < (o.core.kData c).K → (o.core.kData c).xn ≠ 0 →
        Spec.Freundlich (o.core.kData c).K (o.core.kData c).xn (o.core.kData c).q C →
        Spec.Freundlich (kMultOf o c x) x (o.core.kData c).q C) := by
  constructor
  · intro f h
    simp only [kMultOf, h]
  · intro h C hC hK hx hq
    simp only [kMultOf, h]
    exact c46_capacity hK hC hx hq

/-- C83. Every error reported by a single-compound run is the squared deviation of the simulation of that
compound with that pair of constants: `(multiplier, 1/n)` in the optimising branch, where `K` is the
multiplier times the fouled `K` for that `1/n`; `(K, 1/n)` when one pair was asked for; `(1/n, K)` of the
table otherwise. In the optimising branch every pair asked for is there, in order. -/
theorem c83_kfit {S : Sim} {o o' : GacObj} {c : String} {out : KfitOut} {tab : List (ℝ × ℝ)}
    (h : runKfit S o c = (.ok out, o')) (ht : o.bup.data.eff c = some tab) :
    (o.optimize = true ∧ ¬ oneTrial o ∧
      out.ssqs.map (fun t => (t.1, t.2.1)) = o.testRange.flatMap (fun i => o.xnRange.map fun x => (i, x)) ∧
      ∀ t ∈ out.ssqs, Spec.IsTrialError S o c tab (kMultOf o c t.2.1 * t.1) t.2.1 t.2.2) ∨
    (o.kInputList = true ∧ oneTrial o ∧ ∃ k x e, o.testRange = [k] ∧ o.xnRange = [x] ∧
      out.ssqs = [(k, x, e)] ∧ Spec.IsTrialError S o c tab k x e) ∨
    ((o.kInputList = false ∨ ¬ oneTrial o) ∧ ∃ e, out.ssqs = [((o.core.kData c).xn, (o.core.kData c).K, e)] ∧
      out.k = (o.core.kData c).K ∧ out.xn = (o.core.kData c).xn ∧
      Spec.IsTrialError S o c tab (o.core.kData c).K (o.core.kData c).xn e) := by
  obtain ⟨f1, f2, f3, f4⟩ := kfitFlag_rest (toSingle o c)
  obtain ⟨-, -, -, f5, f6, f7, -, f8⟩ := f1
  have f5 : (kfitFlag (toSingle o c)).testRange = o.testRange := f5
  have f6 : (kfitFlag (toSingle o c)).xnRange = o.xnRange := f6
  have f7 : (kfitFlag (toSingle o c)).kInputList = o.kInputList := f7
  have hone : oneTrial (kfitFlag (toSingle o c)) ↔ oneTrial o := by unfold oneTrial; rw [f5, f6]
  have hm : kMultOf (kfitFlag (toSingle o c)) c = kMultOf o c := by
    unfold kMultOf; rw [f8, f2]; rfl
  unfold runKfit at h
  rw [toSingle_eff, ht] at h
  simp only [kfitBody] at h
  split at h
  · rename_i h1
    left
    rw [f4] at h1
    have hn : ¬ oneTrial o := fun hh => by rw [if_pos (show oneTrial (toSingle o c) from hh)] at h1; cases h1
    rw [if_neg (show ¬ oneTrial (toSingle o c) from hn)] at h1
    unfold kfitOpt at h
    split at h
    · simp at h
    · rename_i rows o3 hg
      simp only [Prod.mk.injEq, Except.ok.injEq] at h
      obtain ⟨rfl, -⟩ := h
      obtain ⟨g1, g2⟩ := kfitGrid_rows (kfitFlag (toSingle o c)) rfl (SameButK.refl c _) hg
      rw [f5, f6] at g1
      refine ⟨h1, hn, by simpa using g1, fun t htt => ?_⟩
      obtain ⟨res, e1, e2⟩ := g2 (fun t ht => by cases ht) t htt
      rw [hm, f2, f3] at e1
      rw [f2, c83_sum] at e2
      exact ⟨res, e1, e2⟩
  · split at h
    · rename_i h1 h2
      right; left
      rw [hone, f7] at h2
      refine ⟨h2.1, h2.2, ?_⟩
      obtain ⟨k, hk⟩ := List.length_eq_one_iff.1 h2.2.1
      obtain ⟨x, hx⟩ := List.length_eq_one_iff.1 h2.2.2
      unfold kfitList at h
      simp only [runPsdm] at h
      split at h
      · simp at h
      · rename_i res o3 hr
        simp only [Prod.mk.injEq, Except.ok.injEq] at h hr
        obtain ⟨rfl, -⟩ := h
        rw [f5, f6, f2, f3, hk, hx] at hr
        refine ⟨k, x, _, hk, hx, ?_, res, hr.1, rfl⟩
        rw [f5, f6, f2, hk, hx, c83_sum]
        rfl
    · rename_i h1 h2
      right; right
      rw [hone, f7] at h2
      refine ⟨?_, ?_⟩
      · by_cases hh : oneTrial o
        · left; simpa [hh] using h2
        · right; exact hh
      · unfold kfitPlain at h
        simp only [runPsdm] at h
        split at h
        · simp at h
        · rename_i res o3 hr
          simp only [Prod.mk.injEq, Except.ok.injEq] at h hr
          obtain ⟨rfl, -⟩ := h
          rw [f2, f3] at hr
          refine ⟨_, ?_, by rw [f2]; rfl, by rw [f2]; rfl, res, ?_, rfl⟩
          · rw [f2, c83_sum]; rfl
          · rw [trialCurve_set, ← hr.1]
            congr 1
            show S { (toSingle o c).core with kData := (KTab.set (toSingle o c).core.kData c
              ((toSingle o c).core.kData c).K ((toSingle o c).core.kData c).xn) } _ = _
            rw [KTab.set_self]

end WTM
