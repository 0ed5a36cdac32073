import Verif.Model.GacUncert
import Verif.Props.Uncertainty
import Verif.Props.GacColumn
import Verif.Props.GacRunAll

/-! Properties C38, C40 and C52 for the carbon column: uncertainty analysis. -/
set_option autoImplicit false
namespace WTM

/-! ### What the runs leave alone -/

/-- Everything outside the working values and backups. -/
def Spec.SameSettings (o o' : GacObj) : Prop :=
  o'.dw = o.dw ∧ o'.vw = o.vw ∧ o'.optimize = o.optimize ∧ o'.testRange = o.testRange ∧
    o'.xnRange = o.xnRange ∧ o'.kInputList = o.kInputList ∧ o'.xnDefault = o.xnDefault ∧ o'.kByXn = o.kByXn

theorem SameSettings.refl (o : GacObj) : Spec.SameSettings o o :=
  ⟨rfl, rfl, rfl, rfl, rfl, rfl, rfl, rfl⟩

theorem SameSettings.trans {a b c : GacObj} (h1 : Spec.SameSettings a b) (h2 : Spec.SameSettings b c) :
    Spec.SameSettings a c := by
  obtain ⟨a1, a2, a3, a4, a5, a6, a7, a8⟩ := h1
  obtain ⟨b1, b2, b3, b4, b5, b6, b7, b8⟩ := h2
  exact ⟨b1.trans a1, b2.trans a2, b3.trans a3, b4.trans a4, b5.trans a5, b6.trans a6, b7.trans a7, b8.trans a8⟩

/-- Backups and settings are the same. -/
def Kept (o o' : GacObj) : Prop := o'.bup = o.bup ∧ Spec.SameSettings o o'

theorem Kept.refl (o : GacObj) : Kept o o := ⟨rfl, SameSettings.refl o⟩

theorem Kept.trans {a b c : GacObj} (h1 : Kept a b) (h2 : Kept b c) : Kept a c :=
  ⟨h2.1.trans h1.1, SameSettings.trans h1.2 h2.2⟩

theorem runPsdm_kept (S : Sim) (o : GacObj) : Kept o (runPsdm S o).2 :=
  ⟨rfl, rfl, rfl, rfl, rfl, rfl, rfl, rfl, rfl⟩

theorem uSingles_kept (S : Sim) (kd : KTab) (data : GacData) : ∀ (l : List String) (o : GacObj)
    (res : String → ℝ → ℝ) (mt : MtTab), Kept o (uSingles S kd data l o res mt).2
  | [], o, _, _ => Kept.refl o
  | c :: rest, o, res, mt => by
    have h0 : Kept o (runPsdm S (uSingle kd data c o)).2 := ⟨rfl, rfl, rfl, rfl, rfl, rfl, rfl, rfl, rfl⟩
    unfold uSingles
    split
    · rename_i h; rw [h] at h0; exact h0
    · rename_i h; rw [h] at h0; exact h0.trans (uSingles_kept S kd data rest _ _ _)

theorem uRuns_kept (S : Sim) (single : Bool) (kd : KTab) (data : GacData) (mt0 : MtTab) (o : GacObj) :
    Kept o (uRuns S single kd data mt0 o).2 := by
  unfold uRuns
  split
  · exact uSingles_kept ..
  · have h0 : Kept o (runPsdm S { o with core := { o.core with kData := kd } }).2 :=
      ⟨rfl, rfl, rfl, rfl, rfl, rfl, rfl, rfl, rfl⟩
    split
    · rename_i h; rw [h] at h0; exact h0
    · rename_i h; rw [h] at h0; exact h0

theorem uApply_kept (mm : ℝ) (p : UPrep) (e : UKey × ℝ) : Kept p.o (uApply mm p e).o := by
  obtain ⟨key, f⟩ := e
  cases key <;> exact ⟨rfl, rfl, rfl, rfl, rfl, rfl, rfl, rfl, rfl⟩

theorem uFold_kept (mm : ℝ) : ∀ (t : List (UKey × ℝ)) (p : UPrep), Kept p.o (t.foldl (uApply mm) p).o
  | [], p => Kept.refl p.o
  | e :: t, p => (uApply_kept mm p e).trans (uFold_kept mm t _)

theorem uPrepare_kept (mm : ℝ) (cmt : MtTab) (o : GacObj) (t : List (UKey × ℝ)) :
    Kept o (uPrepare mm cmt o t).o :=
  uFold_kept mm t ⟨{ resetColumn o with core := { (resetColumn o).core with mt := cmt } }, o.bup.kData, o.bup.data⟩

theorem uLoop_kept (S : Sim) (mm : ℝ) (thru single : Bool) (cmt : MtTab) :
    ∀ (tests : List (List (UKey × ℝ))) (o : GacObj) (out : UOut),
      Kept o (uLoop S mm thru single cmt tests o out).2
  | [], o, _ => Kept.refl o
  | t :: rest, o, out => by
    have h0 := (uPrepare_kept mm cmt o t).trans (uRuns_kept S single (uPrepare mm cmt o t).kLoop
      (uPrepare mm cmt o t).data cmt (uPrepare mm cmt o t).o)
    simp only [uLoop]
    split
    · rename_i h; rw [h] at h0; exact h0
    · rename_i h; rw [h] at h0; exact h0.trans (uLoop_kept S mm thru single cmt rest _ _)

/-! ### C52 -/

/-- C52. After `model_uncertainty` returns, the column inputs, data, isotherm table, compounds, matrix shapes and
mass transfer table are those before the call, the hydraulics are those of the inputs, and the settings are
untouched: any simulation, any tests, alone or in competition. -/
theorem c52_restored {S : Sim} {mm : ℝ} {thru single : Bool} {tests : List (List (UKey × ℝ))} {o o' : GacObj}
    {out : UOut} (h : modelUncertainty S mm thru single tests o = (.ok out, o')) :
    o'.core = o.core ∧ o'.bup = o.core ∧ o'.der = derive o.dw o.vw o.core.geom ∧ Spec.SameSettings o o' := by
  simp only [modelUncertainty] at h
  have k1 := uRuns_kept S single (setBackups o).core.kData (setBackups o).bup.data (setBackups o).core.mt
    (setBackups o)
  split at h
  · cases h
  · rename_i base cmt o2 h2
    rw [h2] at k1
    have k2 := k1.trans (uLoop_kept S mm thru single cmt tests o2 ⟨base, base, base⟩)
    split at h
    · cases h
    · rename_i out1 o3 h3
      rw [h3] at k2
      simp only [Prod.mk.injEq, Except.ok.injEq] at h
      obtain ⟨-, rfl⟩ := h
      obtain ⟨e1, e2, e3, e4⟩ := k2
      refine ⟨e1, e1, ?_, e2, e3, e4⟩
      show derive o3.dw o3.vw o3.bup.geom = _
      rw [e1, e2, e3]
      rfl

/-- C52. In particular the hydraulics are those before the call when they were those of the inputs. -/
theorem c52_clean {S : Sim} {mm : ℝ} {thru single : Bool} {tests : List (List (UKey × ℝ))} {o o' : GacObj}
    {out : UOut} (hc : Spec.Clean o) (h : modelUncertainty S mm thru single tests o = (.ok out, o')) :
    o'.core = o.core ∧ o'.bup = o.bup ∧ o'.der = o.der ∧ Spec.Clean o' := by
  obtain ⟨h1, h2, h3, h4⟩ := c52_restored h
  refine ⟨h1, h2.trans hc.1, h3.trans hc.2.symm, h1.trans h2.symm, ?_⟩
  rw [h3, h4.1, h4.2.1, h1]

/-- C52, exceptions: whatever is raised, the backups hold the values before the call, so the next reset brings
them back. -/
theorem c52_exception {S : Sim} {mm : ℝ} {thru single : Bool} {tests : List (List (UKey × ℝ))} {o o' : GacObj}
    {e : PyErr} (h : modelUncertainty S mm thru single tests o = (.error e, o')) :
    (resetColumn o').core = o.core ∧ (resetColumn o').der = derive o.dw o.vw o.core.geom := by
  simp only [modelUncertainty] at h
  have k1 := uRuns_kept S single (setBackups o).core.kData (setBackups o).bup.data (setBackups o).core.mt
    (setBackups o)
  have fin : ∀ x, Kept (setBackups o) x →
      (resetColumn x).core = o.core ∧ (resetColumn x).der = derive o.dw o.vw o.core.geom := by
    rintro x ⟨e1, e2, e3, -⟩
    refine ⟨e1, ?_⟩
    show derive x.dw x.vw x.bup.geom = _
    rw [e1, e2, e3]
    rfl
  split at h
  · rename_i h2
    rw [h2] at k1
    simp only [Prod.mk.injEq] at h
    obtain ⟨-, rfl⟩ := h
    exact fin _ k1
  · rename_i base cmt o2 h2
    rw [h2] at k1
    have k2 := k1.trans (uLoop_kept S mm thru single cmt tests o2 ⟨base, base, base⟩)
    split at h
    · rename_i h3
      rw [h3] at k2
      simp only [Prod.mk.injEq] at h
      obtain ⟨-, rfl⟩ := h
      exact fin _ k2
    · cases h

/-! ### Inputs of the runs -/
namespace Spec

/-- The column with one compound alone. -/
def alone (B : Core) (c : String) : Core :=
  { B with numComps := 1, jac := 1, shape := 1, compounds := [c], data := B.data.only c }

/-- Factor a test names for a key. -/
def factor (t : List (UKey × ℝ)) (key : UKey) : Option ℝ := (t.find? fun e => e.1 = key).map Prod.snd

/-- The column `B` with every quantity named by the test multiplied by its factor, transfer coefficients starting
from the table `m`. A bed made heavier than its free density allows is lengthened. -/
noncomputable def perturbed (B : Core) (m : MtTab) (t : List (UKey × ℝ)) : Core :=
  let f (key : UKey) : ℝ := (factor t key).getD 1
  let area := Real.pi / 4 * B.geom.diam ^ 2
  let wt := B.geom.wt * f .mass
  { B with
    geom := { B.geom with
      flrt := B.geom.flrt * f .flrt
      wt := wt
      L := if (factor t .mass).isSome ∧ B.geom.rhof < wt / (area * B.geom.L) then wt / (area * B.geom.rhof)
        else B.geom.L }
    kData := fun c => { B.kData c with K := (B.kData c).K * f .k, xn := (B.kData c).xn * f .xn }
    data := { B.data with
      infl := fun c => (B.data.infl c).map (List.map fun p : ℝ × ℝ => (p.1, p.2 * f .C)) }
    mt := fun c => ⟨(m c).kf * f .kf, (m c).dp * f .dp, (m c).ds * f .ds⟩ }

/-- The shapes of a test: the capacity pair, or one key. -/
def IsTest (t : List (UKey × ℝ)) : Prop := (∃ a b, t = [(.k, a), (.xn, b)]) ∨ ∃ key a, t = [(key, a)]

/-- Mass transfer recorded by the base runs of the compounds alone. -/
noncomputable def recorded (S : Sim) (B : Core) (d : Derived) : MtTab :=
  open Classical in fun c => if c ∈ B.compounds then (S (alone B c) d).2 c else B.mt c

end Spec

/-- C38, C40. The tests: for `capacity` both opposite changes of `K` and `1/n`, for every other keyword given a
percentage both its changes, and nothing else. -/
theorem c38_gac_tests (cap k qn mass ds dp kf flrt c0 : Option ℝ) (t : List (UKey × ℝ)) :
    t ∈ uTests cap k qn mass ds dp kf flrt c0 ↔
      (∃ p, cap = some p ∧ ∃ s : ℝ, (s = 1 ∨ s = -1) ∧ t = [(.k, 1 + s * p / 100), (.xn, 1 - s * p / 100)]) ∨
      ∃ key v p, (key, v) ∈ [(UKey.k, k), (.qn, qn), (.mass, mass), (.ds, ds), (.dp, dp), (.kf, kf),
        (.flrt, flrt), (.C, c0)] ∧ v = some p ∧ ∃ s : ℝ, (s = 1 ∨ s = -1) ∧ t = [(key, 1 + s * p / 100)] := by
  unfold uTests
  rw [List.mem_append, List.mem_flatMap]
  apply or_congr
  · cases cap with
    | none => simp
    | some p =>
      simp only [List.mem_cons, List.not_mem_nil, or_false, Option.some.injEq]
      constructor
      · rintro (rfl | rfl)
        · exact ⟨p, rfl, 1, .inl rfl, by norm_num⟩
        · exact ⟨p, rfl, -1, .inr rfl, by simp only [neg_mul, one_mul, neg_div]; norm_num [sub_eq_add_neg]⟩
      · rintro ⟨_, rfl, s, rfl | rfl, rfl⟩
        · left; norm_num
        · right; simp only [neg_mul, one_mul, neg_div]; norm_num [sub_eq_add_neg]
  · constructor
    · rintro ⟨⟨key, v⟩, hm, ht⟩
      cases v with
      | none => simp at ht
      | some p =>
        simp only [List.mem_cons, List.not_mem_nil, or_false] at ht
        refine ⟨key, some p, p, hm, rfl, ?_⟩
        rcases ht with rfl | rfl
        · exact ⟨1, .inl rfl, by norm_num⟩
        · exact ⟨-1, .inr rfl, by simp only [neg_mul, one_mul, neg_div]; norm_num [sub_eq_add_neg]⟩
    · rintro ⟨key, v, p, hm, rfl, s, hs, rfl⟩
      refine ⟨(key, some p), hm, ?_⟩
      simp only [List.mem_cons, List.not_mem_nil, or_false]
      rcases hs with rfl | rfl
      · left; norm_num
      · right; simp only [neg_mul, one_mul, neg_div]; norm_num [sub_eq_add_neg]

theorem isTest_of_mem {cap k qn mass ds dp kf flrt c0 : Option ℝ} {t : List (UKey × ℝ)}
    (h : t ∈ uTests cap k qn mass ds dp kf flrt c0) : Spec.IsTest t := by
  rcases (c38_gac_tests ..).1 h with ⟨p, -, s, -, rfl⟩ | ⟨key, v, p, -, -, s, -, rfl⟩
  · exact .inl ⟨_, _, rfl⟩
  · exact .inr ⟨_, _, rfl⟩

theorem map_id_one (l : Option (List (ℝ × ℝ))) : l.map (List.map fun p : ℝ × ℝ => (p.1, p.2 * 1)) = l := by
  cases l <;> simp

/-- The prepared object describes the perturbed column. -/
theorem uPrepare_spec {mm : ℝ} {cmt : MtTab} {o : GacObj} {t : List (UKey × ℝ)} (ht : Spec.IsTest t) :
    (uPrepare mm cmt o t).o.core.geom = (Spec.perturbed o.bup cmt t).geom ∧
    (uPrepare mm cmt o t).o.core.mt = (Spec.perturbed o.bup cmt t).mt ∧
    (uPrepare mm cmt o t).kLoop = (Spec.perturbed o.bup cmt t).kData ∧
    (uPrepare mm cmt o t).data = (Spec.perturbed o.bup cmt t).data ∧
    (uPrepare mm cmt o t).o.der = derive o.dw o.vw (Spec.perturbed o.bup cmt t).geom := by
  rcases ht with ⟨a, b, rfl⟩ | ⟨key, a, rfl⟩
  · simp [uPrepare, uApply, resetColumn, Spec.perturbed, Spec.factor]
  · cases key <;>
      simp [uPrepare, uApply, resetColumn, Spec.perturbed, Spec.factor, GacData.scale, resizeL]

/-! ### Bands of the single-compound analysis -/

/-- What the runs one by one give: the curve of every compound is that of its own run. -/
theorem uSingles_spec {S : Sim} {kd : KTab} {data : GacData} : ∀ {l : List String} {o o' : GacObj}
    {res r : String → ℝ → ℝ} {mt mt' : MtTab}, uSingles S kd data l o res mt = (.ok (r, mt'), o') →
    (∀ c ∈ l, ∃ R, (S (Spec.alone { o.core with kData := kd, data := data } c) o.der).1 = .ok R ∧ r c = R c ∧
      mt' c = (S (Spec.alone { o.core with kData := kd, data := data } c) o.der).2 c) ∧
    ∀ c, c ∉ l → r c = res c ∧ mt' c = mt c
  | [], o, o', res, r, mt, mt', h => by
    simp only [uSingles, Prod.mk.injEq, Except.ok.injEq] at h
    obtain ⟨⟨rfl, rfl⟩, -⟩ := h
    exact ⟨fun c hc => by simp at hc, fun _ _ => ⟨rfl, rfl⟩⟩
  | c :: rest, o, o', res, r, mt, mt', h => by
    unfold uSingles at h
    split at h
    · simp at h
    · rename_i R o1 h1
      simp only [runPsdm, Prod.mk.injEq] at h1
      obtain ⟨hR, rfl⟩ := h1
      obtain ⟨g1, g2⟩ := uSingles_spec h
      refine ⟨fun c' hc' => ?_, fun c' hc' => ?_⟩
      · by_cases hm : c' ∈ rest
        · exact g1 c' hm
        · have hcc : c' = c := by simpa [hm] using hc'
          subst hcc
          obtain ⟨e1, e2⟩ := g2 c' hm
          rw [if_pos rfl] at e1 e2
          exact ⟨R, hR, e1, e2⟩
      · simp only [List.mem_cons, not_or] at hc'
        obtain ⟨e1, e2⟩ := g2 c' hc'.2
        rw [if_neg hc'.1] at e1 e2
        exact ⟨e1, e2⟩

/-- The curve of compound `c` in the test `t` of the column `B`. -/
def Spec.TestCurve (S : Sim) (B : Core) (m : MtTab) (dw vw : ℝ) (c : String) (t : List (UKey × ℝ)) (r : ℝ → ℝ) :
    Prop :=
  ∃ R, (S (Spec.alone (Spec.perturbed B m t) c) (derive dw vw (Spec.perturbed B m t).geom)).1 = .ok R ∧ r = R c

theorem encloses_minmax {ι : Type} {base up lo : ι → ℝ} {rs : List (ι → ℝ)} (h : Spec.Encloses base up lo rs)
    (r : ι → ℝ) : Spec.Encloses base (fun x => max (up x) (r x)) (fun x => min (lo x) (r x)) (rs ++ [r]) := by
  have := encloses_step h r
  refine (congrArg₂ (fun u l => Spec.Encloses base u l (rs ++ [r])) ?_ ?_).mp this
  · funext x; exact (max_def_lt ..).symm
  · funext x
    by_cases hx : lo x > r x
    · rw [if_pos hx, min_eq_right hx.le]
    · rw [if_neg hx, min_eq_left (not_lt.1 hx)]

theorem uPrepare_alone {mm : ℝ} {cmt : MtTab} {o : GacObj} {t : List (UKey × ℝ)} (ht : Spec.IsTest t)
    (c : String) :
    Spec.alone { (uPrepare mm cmt o t).o.core with
      kData := (uPrepare mm cmt o t).kLoop, data := (uPrepare mm cmt o t).data } c =
      Spec.alone (Spec.perturbed o.bup cmt t) c := by
  obtain ⟨h1, h2, h3, h4, -⟩ := uPrepare_spec (mm := mm) (cmt := cmt) (o := o) ht
  unfold Spec.alone
  simp only [h1, h2, h3, h4]

theorem uLoop_single {S : Sim} {mm : ℝ} {thru : Bool} {cmt : MtTab} {c : String} {base : ℝ → ℝ} :
    ∀ {tests : List (List (UKey × ℝ))} {o o' : GacObj} {out out' : UOut} {rs : List (ℝ → ℝ)},
      (∀ t ∈ tests, Spec.IsTest t) → c ∈ o.bup.compounds →
      uLoop S mm thru true cmt tests o out = (.ok out', o') →
      Spec.Encloses base (out.upper c) (out.lower c) rs →
      out'.results = out.results ∧ ∃ rs', List.Forall₂ (Spec.TestCurve S o.bup cmt o.dw o.vw c) tests rs' ∧
        Spec.Encloses base (out'.upper c) (out'.lower c) (rs ++ rs')
  | [], o, o', out, out', rs, _, _, h, he => by
    simp only [uLoop, Prod.mk.injEq, Except.ok.injEq] at h
    obtain ⟨rfl, -⟩ := h
    exact ⟨rfl, [], .nil, by simpa using he⟩
  | t :: rest, o, o', out, out', rs, hT, hc, h, he => by
    have ht := hT t (by simp)
    have k1 := uPrepare_kept mm cmt o t
    have k2 := k1.trans (uRuns_kept S true (uPrepare mm cmt o t).kLoop (uPrepare mm cmt o t).data cmt
      (uPrepare mm cmt o t).o)
    simp only [uLoop] at h
    split at h
    · cases h
    · rename_i r mt' o1 h1
      rw [h1] at k2
      have hs := (uSingles_spec (show uSingles S _ _ _ _ _ _ = _ from h1)).1 c (k1.1 ▸ hc)
      obtain ⟨R, hR, hr, -⟩ := hs
      rw [uPrepare_alone ht, (uPrepare_spec ht).2.2.2.2] at hR
      obtain ⟨g1, rs', g2, g3⟩ := uLoop_single (fun t' h' => hT t' (by simp [h'])) (k2.1 ▸ hc) h
        (rs := rs ++ [r c]) (encloses_minmax he (r c))
      rw [k2.1, k2.2.1, k2.2.2.1] at g2
      exact ⟨g1, r c :: rs', .cons ⟨R, hR, hr⟩ g2, by simpa using g3⟩

/-- C38 and C40 (carbon column, compounds one by one, the default). The base result of a compound is the curve of
the unchanged column with that compound alone. Each test's curve is that of the column with exactly the named
quantities scaled and the transfer coefficients of the base run. The band contains the base and every test's
curve, and each bound is one of them at every time. -/
theorem c38_gac {S : Sim} {mm : ℝ} {thru : Bool} {cap k qn mass ds dp kf flrt c0 : Option ℝ} {o o' : GacObj}
    {out : UOut}
    (h : modelUncertainty S mm thru true (uTests cap k qn mass ds dp kf flrt c0) o = (.ok out, o'))
    {c : String} (hc : c ∈ o.core.compounds) :
    (∃ R, (S (Spec.alone o.core c) o.der).1 = .ok R ∧ out.results c = R c) ∧
    ∃ rs, List.Forall₂ (Spec.TestCurve S o.core (Spec.recorded S o.core o.der) o.dw o.vw c)
        (uTests cap k qn mass ds dp kf flrt c0) rs ∧
      Spec.Encloses (out.results c) (out.upper c) (out.lower c) rs := by
  simp only [modelUncertainty] at h
  have k1 := uRuns_kept S true (setBackups o).core.kData (setBackups o).bup.data (setBackups o).core.mt
    (setBackups o)
  split at h
  · cases h
  · rename_i base cmt o2 h2
    rw [h2] at k1
    obtain ⟨s1, s2⟩ := uSingles_spec (show uSingles S _ _ _ _ _ _ = _ from h2)
    have hcmt : cmt = Spec.recorded S o.core o.der := by
      funext c'
      unfold Spec.recorded
      by_cases hm : c' ∈ o.core.compounds
      · rw [if_pos hm]
        obtain ⟨R, -, -, e⟩ := s1 c' hm
        exact e
      · rw [if_neg hm]
        exact (s2 c' hm).2
    split at h
    · cases h
    · rename_i out1 o3 h3
      simp only [Prod.mk.injEq, Except.ok.injEq] at h
      obtain ⟨rfl, -⟩ := h
      obtain ⟨g1, rs, g2, g3⟩ := uLoop_single (fun t ht => isTest_of_mem ht)
        (show c ∈ o2.bup.compounds by rw [k1.1]; exact hc) h3 (encloses_nil (base c))
      rw [k1.1, k1.2.1, k1.2.2.1, hcmt] at g2
      obtain ⟨R, hR, hb, -⟩ := s1 c hc
      refine ⟨⟨R, hR, by rw [g1]; exact hb⟩, rs, g2, ?_⟩
      rw [g1]
      exact g3

/-! ### Competitive analysis -/

/-- The full claim for compounds in competition: the stored result lies in the stored band. -/
def C38Competitive (thru : Bool) : Prop :=
  ∀ (S : Sim) (mm : ℝ) (cap : Option ℝ) (o o' : GacObj) (out : UOut),
    modelUncertainty S mm thru false (uTests cap none none none none none none none none) o = (.ok out, o') →
    ∀ c ∈ o.core.compounds, ∀ t, out.lower c t ≤ out.results c t ∧ out.results c t ≤ out.upper c t

/-- The full claim for compounds in competition, second part: the stored result is the base run's. -/
def C38BaseKept (thru : Bool) : Prop :=
  ∀ (S : Sim) (mm : ℝ) (cap : Option ℝ) (o o' : GacObj) (out : UOut),
    modelUncertainty S mm thru false (uTests cap none none none none none none none none) o = (.ok out, o') →
    ∀ R, (S o.core o.der).1 = .ok R → out.results = R

/-- A simulation that reports the `K` of compound `A`. -/
def kSim : Sim := fun a _ => (.ok fun _ _ => (a.kData "A").K, fun _ => ⟨0, 0, 0⟩)

theorem kSim_run (thru : Bool) : ∃ o', modelUncertainty kSim 1 thru false
    (uTests (some 10) none none none none none none none none) (demoObj true) =
      (.ok ⟨fun _ _ => 0.9, fun _ _ => if thru then 1.1 else 1, fun _ _ => if thru then 0.9 else 1⟩, o') := by
  refine ⟨_, Prod.ext ?_ rfl⟩
  cases thru <;>
    simp [modelUncertainty, uTests, uLoop, uRuns, runPsdm, kSim, uPrepare, uApply, resetColumn, setBackups, uRecord,
      UOut.widen, demoObj, demoCore] <;> norm_num

/-- C38 is false of the competitive analysis when the chained assignments are lost: the stored result is outside
the band. -/
theorem c38_gac_false : ¬ C38Competitive false := by
  intro h
  obtain ⟨o', ho⟩ := kSim_run false
  have := (h _ _ _ _ _ _ ho "A" (by simp [demoObj, demoCore]) 0).1
  norm_num at this

/-- Whether or not they are lost, the stored result is not the base run's: it is the last test's. -/
theorem c38_gac_base_false (thru : Bool) : ¬ C38BaseKept thru := by
  intro h
  obtain ⟨o', ho⟩ := kSim_run thru
  have := congrFun (congrFun (h _ _ _ _ _ _ ho _ rfl) "A") 0
  norm_num [demoObj, demoCore] at this

/-- The curve of compound `c` in the test `t` with all compounds together. -/
def Spec.TestCurveAll (S : Sim) (B : Core) (m : MtTab) (dw vw : ℝ) (t : List (UKey × ℝ))
    (r : String → ℝ → ℝ) : Prop :=
  (S (Spec.perturbed B m t) (derive dw vw (Spec.perturbed B m t).geom)).1 = .ok r

theorem uPrepare_all {mm : ℝ} {cmt : MtTab} {o : GacObj} {t : List (UKey × ℝ)} (ht : Spec.IsTest t) :
    { (uPrepare mm cmt o t).o.core with kData := (uPrepare mm cmt o t).kLoop } =
      Spec.perturbed o.bup cmt t := by
  rcases ht with ⟨a, b, rfl⟩ | ⟨key, a, rfl⟩
  · simp [uPrepare, uApply, resetColumn, Spec.perturbed, Spec.factor]
  · cases key <;>
      simp [uPrepare, uApply, resetColumn, Spec.perturbed, Spec.factor, GacData.scale, resizeL]

theorem uLoop_all {S : Sim} {mm : ℝ} {thru : Bool} {cmt : MtTab} {base : String → ℝ → ℝ} :
    ∀ {tests : List (List (UKey × ℝ))} {o o' : GacObj} {out out' : UOut} {rs : List (String → ℝ → ℝ)},
      (∀ t ∈ tests, Spec.IsTest t) →
      uLoop S mm thru false cmt tests o out = (.ok out', o') →
      (∀ c, Spec.Encloses (base c) (out.upper c) (out.lower c) (rs.map fun r => r c)) →
      ∃ rs', List.Forall₂ (Spec.TestCurveAll S o.bup cmt o.dw o.vw) tests rs' ∧
        out'.results = rs'.getLastD out.results ∧
        (thru = true → ∀ c, Spec.Encloses (base c) (out'.upper c) (out'.lower c)
          ((rs ++ rs').map fun r => r c)) ∧
        (thru = false → out'.upper = out.upper ∧ out'.lower = out.lower)
  | [], o, o', out, out', rs, _, h, he => by
    simp only [uLoop, Prod.mk.injEq, Except.ok.injEq] at h
    obtain ⟨rfl, -⟩ := h
    exact ⟨[], .nil, rfl, fun _ => by simpa using he, fun _ => ⟨rfl, rfl⟩⟩
  | t :: rest, o, o', out, out', rs, hT, h, he => by
    have ht := hT t (by simp)
    have k1 := uPrepare_kept mm cmt o t
    have k2 := k1.trans (uRuns_kept S false (uPrepare mm cmt o t).kLoop (uPrepare mm cmt o t).data cmt
      (uPrepare mm cmt o t).o)
    simp only [uLoop] at h
    split at h
    · cases h
    · rename_i r mt' o1 h1
      rw [h1] at k2
      have hr : Spec.TestCurveAll S o.bup cmt o.dw o.vw t r := by
        simp only [uRuns, runPsdm, Bool.false_eq_true, if_false] at h1
        split at h1
        · simp at h1
        · rename_i r' o2 h2
          simp only [Prod.mk.injEq, Except.ok.injEq] at h1 h2
          obtain ⟨⟨rfl, -⟩, -⟩ := h1
          have := h2.1
          rw [uPrepare_all ht, (uPrepare_spec ht).2.2.2.2] at this
          exact this
      cases thru with
      | true =>
        obtain ⟨rs', g1, g2, g3, -⟩ := uLoop_all (fun t' h' => hT t' (by simp [h'])) h (rs := rs ++ [r])
          (fun c => by
            rw [List.map_append]
            exact encloses_minmax (he c) (r c))
        rw [k2.1, k2.2.1, k2.2.2.1] at g1
        refine ⟨r :: rs', .cons hr g1, ?_, fun _ => by simpa using g3 rfl, fun h => by cases h⟩
        rw [g2]; cases rs' <;> rfl
      | false =>
        obtain ⟨rs', g1, g2, -, g4⟩ := uLoop_all (fun t' h' => hT t' (by simp [h'])) h (rs := rs) he
        rw [k2.1, k2.2.1, k2.2.2.1] at g1
        refine ⟨r :: rs', .cons hr g1, ?_, fun h => (by cases h), fun _ => g4 rfl⟩
        rw [g2]; cases rs' <;> rfl

/-- C38 and C40 (carbon column, compounds in competition), what holds: every test's curves are those of the
column with exactly the named quantities scaled. When the chained assignments reach the table, the band contains
the base and every test, each bound being one of them. Otherwise both bounds are the base. The stored result is
the last test's, not the base. Missing: the base in the stored result, and the band when assignments are lost. -/
theorem c38_gac_competitive_partial {S : Sim} {mm : ℝ} {thru : Bool}
    {cap k qn mass ds dp kf flrt c0 : Option ℝ} {o o' : GacObj} {out : UOut}
    (h : modelUncertainty S mm thru false (uTests cap k qn mass ds dp kf flrt c0) o = (.ok out, o')) :
    ∃ base rs, (S o.core o.der).1 = .ok base ∧
      List.Forall₂ (Spec.TestCurveAll S o.core (S o.core o.der).2 o.dw o.vw)
        (uTests cap k qn mass ds dp kf flrt c0) rs ∧
      out.results = rs.getLastD base ∧
      (thru = true → ∀ c, Spec.Encloses (base c) (out.upper c) (out.lower c) (rs.map fun r => r c)) ∧
      (thru = false → out.upper = base ∧ out.lower = base) := by
  simp only [modelUncertainty] at h
  have k1 := uRuns_kept S false (setBackups o).core.kData (setBackups o).bup.data (setBackups o).core.mt
    (setBackups o)
  split at h
  · cases h
  · rename_i base cmt o2 h2
    rw [h2] at k1
    have hb : (S o.core o.der).1 = .ok base ∧ cmt = (S o.core o.der).2 := by
      simp only [uRuns, runPsdm, Bool.false_eq_true, if_false] at h2
      split at h2
      · simp at h2
      · rename_i r' o4 h4
        simp only [Prod.mk.injEq, Except.ok.injEq] at h2 h4
        obtain ⟨⟨rfl, rfl⟩, -⟩ := h2
        obtain ⟨h5, rfl⟩ := h4
        exact ⟨h5, rfl⟩
    split at h
    · cases h
    · rename_i out1 o3 h3
      simp only [Prod.mk.injEq, Except.ok.injEq] at h
      obtain ⟨rfl, -⟩ := h
      obtain ⟨rs, g1, g2, g3, g4⟩ := uLoop_all (base := base) (rs := []) (fun t ht => isTest_of_mem ht) h3
        (fun c => encloses_nil (base c))
      rw [k1.1, k1.2.1, k1.2.2.1, hb.2] at g1
      exact ⟨base, rs, hb.1, g1, g2, fun ht c => by simpa using g3 ht c, g4⟩

/-! ### C40 -/

/-- C40, false for `qn`: its tests change nothing, whatever the factor. -/
theorem c40_gac_qn (B : Core) (m : MtTab) (a : ℝ) : Spec.perturbed B m [(.qn, a)] = { B with mt := m } := by
  simp [Spec.perturbed, Spec.factor]

/-- The claim for one keyword: its tests at different percentages give different inputs to the simulation. -/
def C40GacKeyword (key : UKey) : Prop :=
  ∃ (B : Core) (m : MtTab) (a b : ℝ), Spec.perturbed B m [(key, a)] ≠ Spec.perturbed B m [(key, b)]

/-- C40: every keyword but `qn` has an effect on the inputs, `qn` has none. -/
theorem c40_gac_keywords (key : UKey) : C40GacKeyword key ↔ key ≠ .qn := by
  constructor
  · rintro ⟨B, m, a, b, h⟩ rfl
    exact h (by rw [c40_gac_qn, c40_gac_qn])
  · intro hk
    refine ⟨demoCore, fun _ => ⟨1, 1, 1⟩, 1, 2, fun h => ?_⟩
    cases key with
    | qn => exact hk rfl
    | k =>
      have := congrArg (fun c : Core => (c.kData "A").K) h
      norm_num [Spec.perturbed, Spec.factor, demoCore] at this
    | xn =>
      have := congrArg (fun c : Core => (c.kData "A").xn) h
      norm_num [Spec.perturbed, Spec.factor, demoCore] at this
    | mass =>
      have := congrArg (fun c : Core => c.geom.wt) h
      norm_num [Spec.perturbed, Spec.factor, demoCore] at this
    | flrt =>
      have := congrArg (fun c : Core => c.geom.flrt) h
      norm_num [Spec.perturbed, Spec.factor, demoCore] at this
    | ds =>
      have := congrArg (fun c : Core => (c.mt "A").ds) h
      norm_num [Spec.perturbed, Spec.factor] at this
    | dp =>
      have := congrArg (fun c : Core => (c.mt "A").dp) h
      norm_num [Spec.perturbed, Spec.factor] at this
    | kf =>
      have := congrArg (fun c : Core => (c.mt "A").kf) h
      norm_num [Spec.perturbed, Spec.factor] at this
    | C =>
      have := congrArg (fun c : Core => c.data.infl "A") h
      norm_num [Spec.perturbed, Spec.factor, demoCore] at this

/-- C40: the `mass` test changes only the mass as long as the bed stays below its free density. -/
theorem c40_gac_mass {B : Core} {m : MtTab} {a : ℝ}
    (h : B.geom.wt * a / (Real.pi / 4 * B.geom.diam ^ 2 * B.geom.L) ≤ B.geom.rhof) :
    Spec.perturbed B m [(.mass, a)] = { B with mt := m, geom := { B.geom with wt := B.geom.wt * a } } := by
  simp [Spec.perturbed, Spec.factor, not_lt.2 h]

/-- C40, false in water with organic matter: the coefficients a test starts from are not those of the base run.
The recorded surface diffusion coefficient is divided by `1e10` once more. -/
theorem c40_gac_fouled {G : GacCol} {c c' : GacComp} (hof : G.organicFree = false)
    (hs : 0 < (mtSaved G c).2.2) (h : (c'.mtKf, c'.mtDp, c'.mtDs) = mtSaved G c) :
    (mtSaved G c').2.2 = (mtSaved G c).2.2 / 1e10 ∧ (mtSaved G c').2.2 < (mtSaved G c).2.2 := by
  have h1 := (c57_partial G c').2.2.1
  rw [← h] at hs ⊢
  have h2 := h1 hs
  rw [if_neg (by simp [hof])] at h2
  refine ⟨h2, ?_⟩
  show dsUsed G c' < c'.mtDs
  rw [h2]
  simp only at hs
  exact div_lt_self hs (by norm_num)

/-! ### The same answer again -/

theorem uSingles_mt (S : Sim) (kd : KTab) (data : GacData) (l : List String) (o : GacObj)
    (res : String → ℝ → ℝ) (mt m : MtTab) :
    (uSingles S kd data l { o with mtData := m } res mt).1 = (uSingles S kd data l o res mt).1 := by
  cases l with
  | nil => rfl
  | cons c rest => rfl

theorem uRuns_mt (S : Sim) (single : Bool) (kd : KTab) (data : GacData) (mt0 m : MtTab) (o : GacObj) :
    (uRuns S single kd data mt0 { o with mtData := m }).1 = (uRuns S single kd data mt0 o).1 := by
  cases single
  · rfl
  · exact uSingles_mt ..

/-- The prepared object with another recorded table. -/
def putP (m : MtTab) (p : UPrep) : UPrep := { p with o := { p.o with mtData := m } }

theorem uApply_put (mm : ℝ) (m : MtTab) (p : UPrep) (e : UKey × ℝ) :
    uApply mm (putP m p) e = putP m (uApply mm p e) := by
  obtain ⟨key, f⟩ := e
  cases key <;> rfl

theorem uFold_put (mm : ℝ) (m : MtTab) : ∀ (t : List (UKey × ℝ)) (p : UPrep),
    t.foldl (uApply mm) (putP m p) = putP m (t.foldl (uApply mm) p)
  | [], _ => rfl
  | e :: t, p => by
    rw [List.foldl_cons, uApply_put, uFold_put mm m t, List.foldl_cons]

/-- `resetColumn` forgets the working values. -/
theorem uLoop_fst {S : Sim} {mm : ℝ} {thru single : Bool} {cmt : MtTab} :
    ∀ {tests : List (List (UKey × ℝ))} {o o2 : GacObj} {out : UOut}, Kept o o2 →
      (uLoop S mm thru single cmt tests o2 out).1 = (uLoop S mm thru single cmt tests o out).1
  | [], _, _, _, _ => rfl
  | t :: rest, o, o2, out, hk => by
    have hp : ∃ m, resetColumn o2 = { resetColumn o with mtData := m } := by
      obtain ⟨e1, e2, e3, e4, e5, e6, e7, e8, e9⟩ := hk
      refine ⟨o2.mtData, ?_⟩
      unfold resetColumn
      rw [e1, e2, e3]
      cases o2
      cases o
      simp only at *
      simp [*]
    obtain ⟨m, hm⟩ := hp
    have hq : uPrepare mm cmt o2 t = putP m (uPrepare mm cmt o t) := by
      have e := uFold_put mm m t ⟨{ resetColumn o with core := { (resetColumn o).core with mt := cmt } },
          (resetColumn o).core.kData, (resetColumn o).core.data⟩
      unfold uPrepare
      simp only [hm]
      exact congrArg (fun p : UPrep => { p with o := { p.o with der := derive p.o.dw p.o.vw p.o.core.geom } }) e
    have hf := uRuns_mt S single (uPrepare mm cmt o t).kLoop (uPrepare mm cmt o t).data cmt m
      (uPrepare mm cmt o t).o
    have k1 := (uPrepare_kept mm cmt o t).trans (uRuns_kept S single (uPrepare mm cmt o t).kLoop
      (uPrepare mm cmt o t).data cmt (uPrepare mm cmt o t).o)
    have k2 := (uPrepare_kept mm cmt o2 t).trans (uRuns_kept S single (uPrepare mm cmt o2 t).kLoop
      (uPrepare mm cmt o2 t).data cmt (uPrepare mm cmt o2 t).o)
    simp only [uLoop]
    rw [hq] at k2 ⊢
    simp only [putP] at k2 ⊢
    generalize uRuns S single (uPrepare mm cmt o t).kLoop (uPrepare mm cmt o t).data cmt
      (uPrepare mm cmt o t).o = x at *
    generalize uRuns S single (uPrepare mm cmt o t).kLoop (uPrepare mm cmt o t).data cmt
      { (uPrepare mm cmt o t).o with mtData := m } = y at *
    obtain ⟨x1, x2⟩ := x
    obtain ⟨y1, y2⟩ := y
    simp only at hf
    subst hf
    have hxy : Kept x2 y2 := by
      have a := hk.trans k2
      refine ⟨a.1.trans k1.1.symm, ?_⟩
      obtain ⟨a1, a2, a3, a4, a5, a6, a7, a8⟩ := a.2
      obtain ⟨b1, b2, b3, b4, b5, b6, b7, b8⟩ := k1.2
      exact ⟨a1.trans b1.symm, a2.trans b2.symm, a3.trans b3.symm, a4.trans b4.symm, a5.trans b5.symm,
        a6.trans b6.symm, a7.trans b7.symm, a8.trans b8.symm⟩
    cases y1 with
    | error e => rfl
    | ok r => exact uLoop_fst hxy

/-- C52. A second analysis of the same column gives the same tables as the first. -/
theorem c52_again {S : Sim} {mm : ℝ} {thru single : Bool} {tests : List (List (UKey × ℝ))} {o o' : GacObj}
    {out : UOut} (hc : Spec.Clean o) (h : modelUncertainty S mm thru single tests o = (.ok out, o')) :
    (modelUncertainty S mm thru single tests o').1 = .ok out := by
  obtain ⟨h1, h2, h3, -⟩ := c52_clean hc h
  have hs := (c52_restored h).2.2.2
  have ho : setBackups o' = { setBackups o with mtData := o'.mtData } := by
    obtain ⟨e2, e3, e4, e5, e6, e7, e8, e9⟩ := hs
    unfold setBackups
    cases o'
    cases o
    simp only at *
    simp [*]
  have hf := congrArg Prod.fst h
  unfold modelUncertainty at hf ⊢
  simp only [ho] at hf ⊢
  have hr := uRuns_mt S single (setBackups o).core.kData (setBackups o).bup.data (setBackups o).core.mt
    o'.mtData (setBackups o)
  have k1 := uRuns_kept S single (setBackups o).core.kData (setBackups o).bup.data (setBackups o).core.mt
    (setBackups o)
  have k2 := uRuns_kept S single (setBackups o).core.kData (setBackups o).bup.data (setBackups o).core.mt
    { setBackups o with mtData := o'.mtData }
  generalize uRuns S single (setBackups o).core.kData (setBackups o).bup.data (setBackups o).core.mt
    (setBackups o) = x at *
  generalize uRuns S single (setBackups o).core.kData (setBackups o).bup.data (setBackups o).core.mt
    { setBackups o with mtData := o'.mtData } = y at *
  obtain ⟨x1, x2⟩ := x
  obtain ⟨y1, y2⟩ := y
  simp only at hr
  subst hr
  cases y1 with
  | error e => simp at hf
  | ok r =>
    obtain ⟨base, cmt⟩ := r
    have hk : Kept x2 y2 := by
      refine ⟨k2.1.trans k1.1.symm, ?_⟩
      obtain ⟨a1, a2, a3, a4, a5, a6, a7, a8⟩ := k2.2
      obtain ⟨b1, b2, b3, b4, b5, b6, b7, b8⟩ := k1.2
      exact ⟨a1.trans b1.symm, a2.trans b2.symm, a3.trans b3.symm, a4.trans b4.symm, a5.trans b5.symm,
        a6.trans b6.symm, a7.trans b7.symm, a8.trans b8.symm⟩
    have hl := uLoop_fst (S := S) (mm := mm) (thru := thru) (single := single) (cmt := cmt) (tests := tests)
      (out := ⟨base, base, base⟩) hk
    simp only at hf ⊢
    generalize uLoop S mm thru single cmt tests x2 ⟨base, base, base⟩ = u at *
    generalize uLoop S mm thru single cmt tests y2 ⟨base, base, base⟩ = v at *
    obtain ⟨u1, u2⟩ := u
    obtain ⟨v1, v2⟩ := v
    simp only at hl
    subst hl
    cases v1 with
    | error e => simp at hf
    | ok r => simpa using hf

/-! ### The hypotheses are met -/

theorem uSingles_returns {S : Sim} (hS : ∀ a d, ∃ r, (S a d).1 = .ok r) (kd : KTab) (data : GacData) :
    ∀ (l : List String) (o : GacObj) (res : String → ℝ → ℝ) (mt : MtTab),
      ∃ x, (uSingles S kd data l o res mt).1 = .ok x
  | [], _, _, _ => ⟨_, rfl⟩
  | c :: rest, o, res, mt => by
    obtain ⟨r, hr⟩ := hS (uSingle kd data c o).core (uSingle kd data c o).der
    unfold uSingles
    simp only [runPsdm, hr]
    exact uSingles_returns hS kd data rest _ _ _

theorem uRuns_returns {S : Sim} (hS : ∀ a d, ∃ r, (S a d).1 = .ok r) (single : Bool) (kd : KTab)
    (data : GacData) (mt0 : MtTab) (o : GacObj) : ∃ x, (uRuns S single kd data mt0 o).1 = .ok x := by
  cases single
  · obtain ⟨r, hr⟩ := hS { o.core with kData := kd } o.der
    simp only [uRuns, runPsdm, Bool.false_eq_true, if_false, hr]
    exact ⟨_, rfl⟩
  · exact uSingles_returns hS ..

theorem uLoop_returns {S : Sim} (hS : ∀ a d, ∃ r, (S a d).1 = .ok r) (mm : ℝ) (thru single : Bool)
    (cmt : MtTab) : ∀ (tests : List (List (UKey × ℝ))) (o : GacObj) (out : UOut),
      ∃ x, (uLoop S mm thru single cmt tests o out).1 = .ok x
  | [], _, _ => ⟨_, rfl⟩
  | t :: rest, o, out => by
    obtain ⟨x, hx⟩ := uRuns_returns hS single (uPrepare mm cmt o t).kLoop (uPrepare mm cmt o t).data cmt
      (uPrepare mm cmt o t).o
    simp only [uLoop]
    generalize uRuns S single (uPrepare mm cmt o t).kLoop (uPrepare mm cmt o t).data cmt
      (uPrepare mm cmt o t).o = y at *
    obtain ⟨y1, y2⟩ := y
    simp only at hx
    subst hx
    exact uLoop_returns hS mm thru single cmt rest _ _

/-- C52. The analysis returns whenever no run raises. -/
theorem c52_returns {S : Sim} (hS : ∀ a d, ∃ r, (S a d).1 = .ok r) (mm : ℝ) (thru single : Bool)
    (tests : List (List (UKey × ℝ))) (o : GacObj) :
    ∃ out o', modelUncertainty S mm thru single tests o = (.ok out, o') := by
  obtain ⟨x, hx⟩ := uRuns_returns hS single (setBackups o).core.kData (setBackups o).bup.data
    (setBackups o).core.mt (setBackups o)
  simp only [modelUncertainty]
  generalize uRuns S single (setBackups o).core.kData (setBackups o).bup.data (setBackups o).core.mt
    (setBackups o) = y at *
  obtain ⟨y1, y2⟩ := y
  simp only at hx
  subst hx
  obtain ⟨base, cmt⟩ := x
  obtain ⟨z, hz⟩ := uLoop_returns hS mm thru single cmt tests y2 ⟨base, base, base⟩
  simp only
  generalize uLoop S mm thru single cmt tests y2 ⟨base, base, base⟩ = v at *
  obtain ⟨v1, v2⟩ := v
  simp only at hz
  subst hz
  exact ⟨_, _, rfl⟩

/-- The hypotheses of C38 and C52 are met by this column, for `capacity` and flow tests. -/
example (thru single : Bool) : ∃ out o', modelUncertainty kSim 1 thru single
    (uTests (some 10) none none none none none none (some 5) none) (demoObj true) = (.ok out, o') ∧
    Spec.Clean (demoObj true) ∧ "A" ∈ (demoObj true).core.compounds := by
  obtain ⟨out, o', h⟩ := c52_returns (S := kSim) (fun _ _ => ⟨_, rfl⟩) 1 thru single
    (uTests (some 10) none none none none none none (some 5) none) (demoObj true)
  exact ⟨out, o', h, demo_clean true, by simp [demoObj, demoCore]⟩

/-- Those of `c40_gac_mass`. -/
example : demoCore.geom.wt * 1.1 / (Real.pi / 4 * demoCore.geom.diam ^ 2 * demoCore.geom.L) ≤ demoCore.geom.rhof := by
  show (1 : ℝ) * 1.1 / (Real.pi / 4 * 10 ^ 2 * 100) ≤ 1
  rw [div_le_one (by positivity)]
  nlinarith [Real.two_le_pi]

/-- Those of `c40_gac_fouled`. -/
example : ∃ (G : GacCol) (c c' : GacComp), G.organicFree = false ∧ 0 < (mtSaved G c).2.2 ∧
    (c'.mtKf, c'.mtDp, c'.mtDs) = mtSaved G c := by
  let G : GacCol := ⟨1, 1, 1, 1, 1, 1, 1, 1, 1, 1, false⟩
  let c : GacComp := ⟨1, 1, 1, 1, 1, 1, 1, 1⟩
  refine ⟨G, c, ⟨1, 1, 1, 1, 1, kfUsed G c, dpUsed G c, dsUsed G c⟩, rfl, ?_, rfl⟩
  norm_num [G, c, mtSaved, dsUsed]

end WTM
