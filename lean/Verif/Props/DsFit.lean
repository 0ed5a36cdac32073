import Mathlib.Tactic
import Verif.Props.GacState
import Verif.Model.DsFit

/-! C129-C131: the fit of the surface diffusion coefficient and the full-scale prediction built on it. -/
set_option autoImplicit false
namespace WTM
noncomputable section

variable {S : Sim} {inp : DsIn} {o o' : GacObj} {c : String} {out : DsOut}

/-- The effluent simulated for compound `c` alone with surface diffusion coefficient `d`. -/
def Spec.simDs (S : Sim) (o : GacObj) (c : String) (d : ℝ) : Except PyErr (String → ℝ → ℝ) :=
  (S { geom := o.core.geom, kData := o.core.kData, data := o.bup.data.only c, compounds := [c], numComps := 1, jac := 1,
       shape := 1, mt := fun c' => if c' = c then ⟨(o.core.mt c).kf, (o.core.mt c).dp, d⟩ else o.core.mt c' } o.der).1

/-- Sum of squared differences on the days before breakthrough. -/
def Spec.dayError (brk : ℝ) (sim obs : ℝ → ℝ) : ℝ := ∑ k ∈ Finset.range ⌈brk⌉₊, (sim k - obs k) ^ 2

theorem dayError_eq (brk : ℝ) (sim obs : ℝ → ℝ) : ssqOf brk sim obs = Spec.dayError brk sim obs := by
  unfold ssqOf Spec.dayError
  generalize ⌈brk⌉₊ = n
  induction n with
  | zero => simp
  | succ n ih => rw [Finset.sum_range_succ, List.range_succ, List.map_append, List.sum_append, ih]; simp

theorem setDs_setDs (a b : ℝ) : (setDs (setDs o c a) c b).core = (setDs o c b).core := by
  unfold setDs
  simp only [Core.mk.injEq, true_and]
  funext c'
  by_cases h : c' = c
  · simp [h]
  · simp [h]

/-- What the loop does. -/
theorem dsLoop_ok {obs : ℝ → ℝ} {brk base : ℝ} : ∀ {l : List ℝ} {o o2 : GacObj} {b b2 : DsBest} {rows rows2 : List (ℝ × ℝ)},
    dsLoop S c obs brk base l o b rows = (.ok (b2, rows2), o2) →
    (o2.bup = o.bup ∧ o2.dw = o.dw ∧ o2.vw = o.vw ∧ o2.testRange = o.testRange ∧ o2.optimize = o.optimize ∧
      o2.xnRange = o.xnRange ∧ o2.kInputList = o.kInputList ∧ o2.xnDefault = o.xnDefault ∧ o2.kByXn = o.kByXn) ∧
    ∃ res : ℝ → String → ℝ → ℝ, (∀ f ∈ l, (S (setDs o c (f * base)).core o.der).1 = .ok (res f)) ∧
      rows2 = rows ++ l.map (fun f => (f, ssqOf brk (res f c) obs)) ∧
      ((b2 = b ∧ ∀ f ∈ l, b.ssq ≤ ssqOf brk (res f c) obs) ∨
        ∃ f ∈ l, b2 = ⟨ssqOf brk (res f c) obs, some (base * f, res f c)⟩ ∧ ssqOf brk (res f c) obs < b.ssq ∧
          ∀ g ∈ l, ssqOf brk (res f c) obs ≤ ssqOf brk (res g c) obs)
  | [], o, o2, b, b2, rows, rows2, h => by
    simp only [dsLoop, Prod.mk.injEq, Except.ok.injEq] at h
    obtain ⟨⟨rfl, rfl⟩, rfl⟩ := h
    exact ⟨⟨rfl, rfl, rfl, rfl, rfl, rfl, rfl, rfl, rfl⟩, fun _ _ _ => 0, by simp, by simp, Or.inl ⟨rfl, by simp⟩⟩
  | f :: l, o, o2, b, b2, rows, rows2, h => by
    rw [dsLoop] at h
    simp only [runPsdm] at h
    rcases hs : (S (setDs o c (f * base)).core (setDs o c (f * base)).der).1 with e | r
    · rw [hs] at h; simp at h
    · rw [hs] at h
      simp only at h
      obtain ⟨h1, res, h2, h3, h4⟩ := dsLoop_ok h
      have hcore : ∀ g, (setDs { setDs o c (f * base) with mtData := (S (setDs o c (f * base)).core
          (setDs o c (f * base)).der).2 } c (g * base)).core = (setDs o c (g * base)).core := fun g =>
        setDs_setDs (o := o) (c := c) (f * base) (g * base)
      refine ⟨h1, fun g => if g = f then r else res g, ?_, ?_, ?_⟩
      · intro g hg
        by_cases hgf : g = f
        · simp only [hgf, if_true]; exact hs
        · simp only [if_neg hgf]
          rcases List.mem_cons.1 hg with rfl | hg
          · exact absurd rfl hgf
          · have := h2 g hg
            rw [hcore] at this
            exact this
      · have same : ∀ g ∈ l, res g c = (if g = f then r else res g) c := by
          intro g hg
          by_cases hgf : g = f
          · subst hgf
            have := h2 g hg
            rw [hcore] at this
            have e2 : (S (setDs o c (g * base)).core o.der).1 = .ok r := hs
            rw [if_pos rfl, Except.ok.inj (this.symm.trans e2)]
          · rw [if_neg hgf]
        rw [h3, List.map_cons, List.append_assoc]
        simp only [List.singleton_append, if_true]
        congr 2
        apply List.map_congr_left
        intro g hg
        rw [same g hg]
      · have same : ∀ g ∈ l, (if g = f then r else res g) = res g := by
          intro g hg
          by_cases hgf : g = f
          · subst hgf
            have := h2 g hg
            rw [hcore] at this
            have e2 : (S (setDs o c (g * base)).core o.der).1 = .ok r := hs
            rw [if_pos rfl, Except.ok.inj (this.symm.trans e2)]
          · rw [if_neg hgf]
        beta_reduce
        rcases h4 with ⟨hb, hle⟩ | ⟨g, hg, hb, hlt, hle⟩
        · by_cases hs2 : ssqOf brk (r c) obs < b.ssq
          · right
            rw [if_pos hs2] at hb hle
            refine ⟨f, List.mem_cons_self, ?_, ?_, ?_⟩
            · simp only [if_true]; exact hb
            · simp only [if_true]; exact hs2
            · intro g hg
              simp only [if_true]
              rcases List.mem_cons.1 hg with rfl | hg
              · simp
              · rw [same g hg]; exact hle g hg
          · left
            rw [if_neg hs2] at hb hle
            refine ⟨hb, fun g hg => ?_⟩
            rcases List.mem_cons.1 hg with rfl | hg
            · simp only [if_true]; exact not_lt.1 hs2
            · rw [same g hg]; exact hle g hg
        · right
          refine ⟨g, List.mem_cons_of_mem _ hg, by rw [same g hg]; exact hb, ?_, ?_⟩
          · rw [same g hg]
            refine hlt.trans_le ?_
            split_ifs with h5
            · exact h5.le
            · exact le_rfl
          · intro k hk
            rw [same g hg]
            rcases List.mem_cons.1 hk with rfl | hk
            · simp only [if_true]
              refine hlt.le.trans ?_
              split_ifs with h5
              · exact le_rfl
              · exact not_lt.1 h5
            · rw [same k hk]; exact hle k hk

/-- The thirty factors: from 1e-10 to 1. -/
theorem c129_factors : dsTests.length = 30 ∧ (∀ f ∈ dsTests, 1e-10 ≤ f ∧ f ≤ 1) ∧ (1e-10 : ℝ) ∈ dsTests ∧ (1 : ℝ) ∈ dsTests := by
  unfold dsTests linspaceN
  refine ⟨by simp, ?_, ?_, ?_⟩
  · intro f hf
    obtain ⟨k, hk, rfl⟩ := List.mem_map.1 hf
    have h1 : (k : ℝ) ≤ 29 := by exact_mod_cast (by have := List.mem_range.1 hk; omega)
    have h0 : (0 : ℝ) ≤ k := Nat.cast_nonneg k
    constructor <;> norm_num <;> nlinarith
  · exact List.mem_map.2 ⟨0, by simp, by norm_num⟩
  · exact List.mem_map.2 ⟨29, by simp, by norm_num⟩

/-- C129, in full: for a compound with data, on a column whose simulations return and whose errors are below 1e20, the
fit returns. -/
def C129 : Prop := ∀ (S : Sim) (inp : DsIn) (o : GacObj) (c : String) (tab : List (ℝ × ℝ)),
  Spec.Clean o → o.bup.data.eff c = some tab → (∀ co d, ∃ r, (S co d).1 = .ok r ∧
    ssqOf (o.core.kData c).brk (r c) (interpExtrap tab) < 1e20) →
  ∃ out o', dsFit S inp o c = (.ok out, o')

/-- C129, what is returned when it returns: the coefficient with the least error of thirty, its curve, and the object
as it was stored. -/
theorem c129_partial {tab : List (ℝ × ℝ)} (ht : o.bup.data.eff c = some tab) (h : dsFit S inp o c = (.ok out, o')) :
    ∃ (res : ℝ → String → ℝ → ℝ) (f : ℝ), f ∈ dsTests ∧ out.ds = out.base * f ∧ out.curve = res f c ∧
    (∀ g ∈ dsTests, Spec.simDs S o c (g * out.base) = .ok (res g)) ∧
    out.ssqs = dsTests.map (fun g => (g, Spec.dayError (o.core.kData c).brk (res g c) (interpExtrap tab))) ∧
    (∀ g ∈ dsTests, Spec.dayError (o.core.kData c).brk (res f c) (interpExtrap tab) ≤
      Spec.dayError (o.core.kData c).brk (res g c) (interpExtrap tab)) ∧
    o'.core = o.bup ∧ o'.der = derive o.dw o.vw o.bup.geom ∧ o'.bup = o.bup ∧ o'.testRange = o.testRange ∧
      o'.optimize = o.optimize := by
  unfold dsFit at h
  simp only [toSingle_eff, ht] at h
  rcases hp : inp.props c with _ | ⟨molVol, mw⟩
  · rw [hp] at h; simp at h
  · rw [hp] at h
    simp only at h
    generalize hb : dsBase (toSingle o c) c molVol (dsCb0 inp mw (toSingle o c) c) = base at h
    rcases hl : dsLoop S c (interpExtrap tab) ((toSingle o c).core.kData c).brk base dsTests (toSingle o c) ⟨1e20, none⟩ []
      with ⟨e | ⟨b, rows⟩, o2⟩
    · rw [hl] at h; simp at h
    · rw [hl] at h
      simp only at h
      obtain ⟨⟨r1, r2, r3, r4, r5, -⟩, res, h2, h3, h4⟩ := dsLoop_ok hl
      rcases h4 with ⟨rfl, -⟩ | ⟨f, hf, rfl, -, hle⟩
      · simp at h
      · simp only [Prod.mk.injEq, Except.ok.injEq] at h
        obtain ⟨rfl, rfl⟩ := h
        refine ⟨res, f, hf, rfl, rfl, h2, ?_, ?_, ?_, ?_, r1, r4, r5⟩
        · simp only [h3, List.nil_append]
          apply List.map_congr_left
          intro g _
          rw [dayError_eq]; rfl
        · intro g hg
          rw [← dayError_eq, ← dayError_eq]
          exact hle g hg
        · show o2.bup = o.bup; exact r1
        · show derive o2.dw o2.vw o2.bup.geom = _; rw [r1, r2, r3]; rfl

/-- C129: the table `__init__` builds has no molar volume: `KeyError`, and the object is left with one compound. -/
theorem c129_fresh (hp : inp.props c = none) : dsFit S inp o c = (.error .keyError, toSingle o c) ∧
    (toSingle o c).core.compounds = [c] := by
  refine ⟨?_, rfl⟩
  unfold dsFit
  simp only [hp]
  split <;> rfl

/-- A column with two compounds and data for them. -/
def exDsCore : Core where
  geom := ⟨100, 10, 1, 1, 1, 1, 1, 1, 1, 1⟩
  kData := fun _ => ⟨1, 1, 1, 1, 1⟩
  data := ⟨fun _ => some [(0, 1), (1, 1)], fun _ => some [(0, 0), (1, 1)]⟩
  compounds := ["a", "b"]
  numComps := 2
  jac := 2
  shape := 2
  mt := fun _ => ⟨0, 0, 0⟩

def exDsObj : GacObj where
  core := exDsCore
  der := derive 1 1 exDsCore.geom
  bup := exDsCore
  dw := 1
  vw := 1
  mtData := fun _ => ⟨0, 0, 0⟩
  optimize := true
  testRange := [1]
  xnRange := [1]
  kInputList := false
  xnDefault := 0.45
  kByXn := fun _ => none

theorem c129_false : ¬ C129 := by
  intro h
  obtain ⟨out, o', e⟩ := h (fun _ _ => (.ok fun _ _ => 0, fun _ => ⟨0, 0, 0⟩)) ⟨1, fun _ => none⟩ exDsObj "a"
    [(0, 0), (1, 1)] ⟨rfl, rfl⟩ rfl (fun _ _ => ⟨_, rfl, by
      simp only [ssqOf, exDsObj, exDsCore]
      norm_num [interpExtrap]⟩)
  rw [(c129_fresh rfl).1] at e
  simp at e

/-- With the two rows in `k_data` the fit returns: the hypotheses of `c129_partial` can be met. -/
theorem c129_returns {tab : List (ℝ × ℝ)} (ht : o.bup.data.eff c = some tab) {p : ℝ × ℝ} (hp : inp.props c = some p)
    (hS : ∀ co d, ∃ r, (S co d).1 = .ok r ∧ ssqOf (o.core.kData c).brk (r c) (interpExtrap tab) < 1e20) :
    ∃ out o', dsFit S inp o c = (.ok out, o') := by
  have loop : ∀ (base : ℝ) (l : List ℝ) (o1 : GacObj) (b : DsBest) (rows : List (ℝ × ℝ)),
      ∃ b2 rows2 o2, dsLoop S c (interpExtrap tab) (o.core.kData c).brk base l o1 b rows = (.ok (b2, rows2), o2) := by
    intro base l
    induction l with
    | nil => intro o1 b rows; exact ⟨b, rows, o1, rfl⟩
    | cons f l ih =>
      intro o1 b rows
      obtain ⟨r, hr, -⟩ := hS (setDs o1 c (f * base)).core (setDs o1 c (f * base)).der
      rw [dsLoop]
      simp only [runPsdm, hr]
      exact ih _ _ _
  unfold dsFit
  simp only [toSingle_eff, ht, hp]
  generalize dsBase (toSingle o c) c p.1 (dsCb0 inp p.2 (toSingle o c) c) = base
  obtain ⟨b2, rows2, o2, hl⟩ := loop base dsTests (toSingle o c) ⟨1e20, none⟩ []
  have hl' : dsLoop S c (interpExtrap tab) ((toSingle o c).core.kData c).brk base dsTests (toSingle o c) ⟨1e20, none⟩ [] =
    (.ok (b2, rows2), o2) := hl
  rw [hl']
  simp only
  obtain ⟨-, res, h2, -, h4⟩ := dsLoop_ok hl
  rcases h4 with ⟨rfl, hall⟩ | ⟨f, -, rfl, -⟩
  · exfalso
    have h1 := hall 1 c129_factors.2.2.2
    obtain ⟨r, hr, hlt⟩ := hS (setDs (toSingle o c) c (1 * base)).core (toSingle o c).der
    rw [h2 1 c129_factors.2.2.2] at hr
    rw [← Except.ok.inj hr] at hlt
    exact absurd hlt (not_lt.2 h1)
  · exact ⟨_, _, rfl⟩

/-! ### C130 -/

/-- C130: the base value a fit uses, from the first influent sample in molar units. -/
theorem c130_base {t0 v0 : ℝ} {rest : List (ℝ × ℝ)} (hi : o.bup.data.infl c = some ((t0, v0) :: rest))
    (h : dsFit S inp o c = (.ok out, o')) : ∃ molVol mw cb0, inp.props c = some (molVol, mw) ∧
    cb0 = v0 * inp.massMul / mw ∧ out.base = o.core.geom.epor * difl o.vw molVol * cb0 * o.core.geom.psdfr /
      (1e3 * o.core.geom.rhop * cb0 ^ (o.core.kData c).xn) := by
  unfold dsFit at h
  rcases ht : (toSingle o c).core.data.eff c with _ | tab
  · simp [ht] at h
  rcases hp : inp.props c with _ | ⟨mv, mw⟩
  · simp [ht, hp] at h
  simp only [ht, hp] at h
  have hb : dsCb0 inp mw (toSingle o c) c = v0 * inp.massMul / mw := by
    unfold dsCb0
    rw [show (toSingle o c).core.data.infl c = if c = c then o.bup.data.infl c else none from rfl, if_pos rfl, hi]
    rfl
  rw [hb] at h
  refine ⟨mv, mw, _, rfl, rfl, ?_⟩
  generalize hbase : dsBase (toSingle o c) c mv (v0 * inp.massMul / mw) = base at h
  rcases hl : dsLoop S c (interpExtrap tab) ((toSingle o c).core.kData c).brk base dsTests (toSingle o c) ⟨1e20, none⟩ []
    with ⟨e | ⟨b, rows⟩, o2⟩
  · rw [hl] at h; simp at h
  rw [hl] at h
  simp only at h
  rcases hv : b.val with _ | ⟨d, cv⟩
  · rw [hv] at h; simp at h
  · rw [hv] at h
    simp only [Prod.mk.injEq, Except.ok.injEq] at h
    obtain ⟨rfl, -⟩ := h
    exact hbase.symm

/-- C130, in full: the coefficient the factors multiply is the one a run uses by correlation. -/
def C130 : Prop := ∀ (G : GacCol) (k : GacComp) (o : GacObj) (c : String), o.core.geom.epor = G.epor →
  o.core.geom.psdfr = G.psdfr → o.core.geom.rhop = G.rhop → o.vw = G.vw → (o.core.kData c).xn = k.xn → G.organicFree = true →
  0 < k.c0 → 0 < k.mw → 0 < k.K → 0 < G.tortu → dsBase o c k.molVol k.c0 = dsCorr G k

/-- C130, what holds: it is the correlation times tortuosity times molar `K`. -/
theorem c130_partial {G : GacCol} {k : GacComp} (h1 : o.core.geom.epor = G.epor) (h2 : o.core.geom.psdfr = G.psdfr)
    (h3 : o.core.geom.rhop = G.rhop) (h4 : o.vw = G.vw) (h5 : (o.core.kData c).xn = k.xn) (h6 : G.organicFree = true)
    (hc : 0 < k.c0) (hm : 0 < k.mw) (hK : 0 < k.K) (ht : 0 < G.tortu) :
    dsBase o c k.molVol k.c0 = dsCorr G k * (G.tortu * (k.K * k.mw ^ (k.xn - 1))) := by
  have hmk : molarK k.K k.mw k.xn = k.K * k.mw ^ (k.xn - 1) := by
    unfold molarK
    rw [Real.div_rpow zero_le_one hm.le, Real.one_rpow, Real.rpow_sub hm, Real.rpow_one]
    have := (Real.rpow_pos_of_pos hm k.xn).ne'
    field_simp
  have hp : 0 < k.K * k.mw ^ (k.xn - 1) := mul_pos hK (Real.rpow_pos_of_pos hm _)
  unfold dsBase dsCorr cb0Of tortu0
  rw [hmk, h1, h2, h3, h4, h5, if_neg hc.ne', if_pos h6]
  rw [show G.tortu * 1e3 * G.rhop * (k.K * k.mw ^ (k.xn - 1)) * k.c0 ^ k.xn =
    (1e3 * G.rhop * k.c0 ^ k.xn) * (G.tortu * (k.K * k.mw ^ (k.xn - 1))) by ring, 
    ← div_div _ _ (G.tortu * (k.K * k.mw ^ (k.xn - 1))), div_mul_cancel₀ _ (mul_pos ht hp).ne']

/-- C130: in a fouled water a trial value is divided by 1e10 before it is used. -/
theorem c130_fouled {G : GacCol} {k : GacComp} (hG : G.organicFree = false) {f base : ℝ} (hp : 0 < f * base) :
    dsUsed G { k with mtDs := f * base } = f * base / 1e10 := by
  unfold dsUsed
  simp [hG, hp]

theorem c130_false : ¬ C130 := by
  intro h
  let G : GacCol := ⟨1, 1, 1, 1, 1, 1, 1, 1, 1, 1, true⟩
  let k : GacComp := ⟨2, 1, 1, 1, 1, 0, 0, 0⟩
  have e1 := h G k exDsObj "a" rfl rfl rfl rfl rfl rfl one_pos one_pos (by norm_num [k]) one_pos
  have e2 := c130_partial (G := G) (k := k) (o := exDsObj) (c := "a") rfl rfl rfl rfl rfl rfl one_pos one_pos
    (by norm_num [k]) one_pos
  rw [e1] at e2
  have hpos : 0 < dsCorr G k := by
    simp only [dsCorr, G, k, tortu0, cb0Of, molarK, difl]
    norm_num
    positivity
  have : G.tortu * (k.K * k.mw ^ (k.xn - 1)) = 2 := by norm_num [G, k]
  rw [this] at e2
  linarith

/-! ### C131 -/

/-- C131, in full: the prediction uses the curve simulated with the coefficient stored in row `ds`. -/
def C131 : Prop := ∀ (S : Sim) (inp : DsIn) (dsRow : String → Option ℝ) (daily : (ℝ → ℝ) → ℕ → ℝ) (o : GacObj) (c : String)
  (d : ℝ) (total per maxDays : ℕ) (target : ℝ) (r : ℕ × List ℝ) (o' : GacObj), Spec.Clean o → dsRow c = some d →
  predictDs S inp dsRow daily [c] total per maxDays target o = (.ok r, o') →
  ∃ res, Spec.simDs S o c d = .ok res ∧ r = predictFullScale total per maxDays [daily (res c)] target

theorem dsFit_testRange (tr : List ℝ) : (dsFit S inp { o with testRange := tr } c).1 = (dsFit S inp o c).1 ∧
    (dsFit S inp { o with testRange := tr } c).2 = { (dsFit S inp o c).2 with testRange := tr } := by
  have hl : ∀ (obs : ℝ → ℝ) (brk base : ℝ) (l : List ℝ) (o : GacObj) (b : DsBest) (rows : List (ℝ × ℝ)),
      (dsLoop S c obs brk base l { o with testRange := tr } b rows) =
      ((dsLoop S c obs brk base l o b rows).1, { (dsLoop S c obs brk base l o b rows).2 with testRange := tr }) := by
    intro obs brk base l
    induction l with
    | nil => intro o b rows; rfl
    | cons f l ih =>
      intro o b rows
      rw [dsLoop, dsLoop]
      simp only [runPsdm]
      have e : (setDs { o with testRange := tr } c (f * base)) = { setDs o c (f * base) with testRange := tr } := rfl
      rw [e]
      simp only
      rcases (S (setDs o c (f * base)).core (setDs o c (f * base)).der).1 with er | r
      · rfl
      · simp only
        rw [← ih]
  unfold dsFit
  have et : toSingle { o with testRange := tr } c = { toSingle o c with testRange := tr } := rfl
  simp only [et]
  rcases (toSingle o c).core.data.eff c with _ | tab
  · exact ⟨rfl, rfl⟩
  · simp only
    rcases inp.props c with _ | ⟨mv, mw⟩
    · exact ⟨rfl, rfl⟩
    · simp only
      have eb : dsBase { toSingle o c with testRange := tr } c mv (dsCb0 inp mw { toSingle o c with testRange := tr } c) =
        dsBase (toSingle o c) c mv (dsCb0 inp mw (toSingle o c) c) := rfl
      rw [eb, hl]
      rcases dsLoop S c (interpExtrap tab) ((toSingle o c).core.kData c).brk
        (dsBase (toSingle o c) c mv (dsCb0 inp mw (toSingle o c) c)) dsTests (toSingle o c) ⟨1e20, none⟩ []
        with ⟨e | ⟨b, rows⟩, o2⟩
      · exact ⟨rfl, rfl⟩
      · simp only
        rcases b.val with _ | ⟨d, cv⟩
        · exact ⟨rfl, rfl⟩
        · exact ⟨rfl, rfl⟩

/-- C131: the stored coefficients make no difference: the fit does not read the range it is given. -/
theorem c131_ignored {dsRow dsRow' : String → Option ℝ} {daily : (ℝ → ℝ) → ℕ → ℝ} {filter : List String}
    {total per maxDays : ℕ} {target : ℝ} (h1 : ∀ c ∈ filter, (dsRow c).isSome) (h2 : ∀ c ∈ filter, (dsRow' c).isSome) :
    (predictDs S inp dsRow daily filter total per maxDays target o).1 =
    (predictDs S inp dsRow' daily filter total per maxDays target o).1 := by
  have loop : ∀ (l : List String) (o : GacObj) (tr : List ℝ) (acc : List (ℕ → ℝ)), (∀ c ∈ l, (dsRow c).isSome) →
      (∀ c ∈ l, (dsRow' c).isSome) →
      (pdsLoop S inp dsRow daily l o acc).1 = (pdsLoop S inp dsRow' daily l { o with testRange := tr } acc).1 := by
    intro l
    induction l with
    | nil => intro o tr acc _ _; rfl
    | cons c l ih =>
      intro o tr acc h1 h2
      obtain ⟨d, hd⟩ := Option.isSome_iff_exists.1 (h1 c List.mem_cons_self)
      obtain ⟨d', hd'⟩ := Option.isSome_iff_exists.1 (h2 c List.mem_cons_self)
      rw [pdsLoop, pdsLoop, hd, hd']
      simp only
      obtain ⟨e1, e2⟩ := dsFit_testRange (S := S) (inp := inp) (o := o) (c := c) [d]
      obtain ⟨e3, e4⟩ := dsFit_testRange (S := S) (inp := inp) (o := o) (c := c) [d']
      rw [show dsFit S inp { o with testRange := [d] } c = ((dsFit S inp o c).1, { (dsFit S inp o c).2 with testRange := [d] })
        from Prod.ext e1 e2, show dsFit S inp { o with testRange := [d'] } c =
        ((dsFit S inp o c).1, { (dsFit S inp o c).2 with testRange := [d'] }) from Prod.ext e3 e4]
      rcases (dsFit S inp o c).1 with e | out
      · rfl
      · simp only
        exact ih { (dsFit S inp o c).2 with testRange := [d] } [d'] _ (fun x hx => h1 x (List.mem_cons_of_mem _ hx))
          (fun x hx => h2 x (List.mem_cons_of_mem _ hx))
  unfold predictDs
  have := loop filter { o with optimize := false, core := { o.core with compounds := filter } } o.testRange [] h1 h2
  change _ = (pdsLoop S inp dsRow' daily filter { o with optimize := false, core := { o.core with compounds := filter } } []).1 at this
  rcases hx : pdsLoop S inp dsRow daily filter { o with optimize := false, core := { o.core with compounds := filter } } []
    with ⟨e | cs, oo⟩ <;>
  rcases hy : pdsLoop S inp dsRow' daily filter { o with optimize := false, core := { o.core with compounds := filter } } []
    with ⟨e' | cs', oo'⟩ <;> rw [hx, hy] at this <;> simp only at this ⊢
  · exact congrArg _ (by simpa using this)
  · simp at this
  · simp at this
  · rw [Except.ok.inj this]

/-- A fit reads the object through the tables of one compound and the stored copy. -/
theorem dsFit_frame {o1 o2 : GacObj} (h1 : (toSingle o1 c).core = (toSingle o2 c).core) (h2 : o1.der = o2.der)
    (h3 : o1.vw = o2.vw) : (dsFit S inp o1 c).1 = (dsFit S inp o2 c).1 := by
  have hl : ∀ (obs : ℝ → ℝ) (brk base : ℝ) (l : List ℝ) (o1 o2 : GacObj) (b : DsBest) (rows : List (ℝ × ℝ)),
      o1.core = o2.core → o1.der = o2.der →
      (dsLoop S c obs brk base l o1 b rows).1 = (dsLoop S c obs brk base l o2 b rows).1 := by
    intro obs brk base l
    induction l with
    | nil => intro o1 o2 b rows _ _; rfl
    | cons f l ih =>
      intro o1 o2 b rows e1 e2
      rw [dsLoop, dsLoop]
      simp only [runPsdm]
      have e3 : (setDs o1 c (f * base)).core = (setDs o2 c (f * base)).core := by unfold setDs; rw [e1]
      have e4 : (setDs o1 c (f * base)).der = (setDs o2 c (f * base)).der := e2
      rw [e3, e4]
      rcases (S (setDs o2 c (f * base)).core (setDs o2 c (f * base)).der).1 with er | r
      · rfl
      · simp only
        exact ih _ _ _ _ rfl rfl
  unfold dsFit
  simp only [h1]
  rcases (toSingle o2 c).core.data.eff c with _ | tab
  · rfl
  · simp only
    rcases inp.props c with _ | ⟨mv, mw⟩
    · rfl
    · simp only
      have eb : dsBase (toSingle o1 c) c mv (dsCb0 inp mw (toSingle o1 c) c) =
          dsBase (toSingle o2 c) c mv (dsCb0 inp mw (toSingle o2 c) c) := by
        unfold dsBase dsCb0
        rw [h1, show (toSingle o1 c).vw = (toSingle o2 c).vw from h3]
      rw [eb]
      have := hl (interpExtrap tab) ((toSingle o2 c).core.kData c).brk
        (dsBase (toSingle o2 c) c mv (dsCb0 inp mw (toSingle o2 c) c)) dsTests (toSingle o1 c) (toSingle o2 c) ⟨1e20, none⟩ []
        h1 h2
      rcases hx : dsLoop S c (interpExtrap tab) ((toSingle o2 c).core.kData c).brk
        (dsBase (toSingle o2 c) c mv (dsCb0 inp mw (toSingle o2 c) c)) dsTests (toSingle o1 c) ⟨1e20, none⟩ []
        with ⟨e | ⟨b, rows⟩, oo⟩ <;>
      rcases hy : dsLoop S c (interpExtrap tab) ((toSingle o2 c).core.kData c).brk
        (dsBase (toSingle o2 c) c mv (dsCb0 inp mw (toSingle o2 c) c)) dsTests (toSingle o2 c) ⟨1e20, none⟩ []
        with ⟨e' | ⟨b', rows'⟩, oo'⟩ <;> rw [hx, hy] at this <;> simp only at this ⊢
      · simpa using this
      · simp at this
      · simp at this
      · simp only [Except.ok.injEq, Prod.mk.injEq] at this
        obtain ⟨rfl, rfl⟩ := this
        rcases b.val with _ | ⟨d, cv⟩
        · rfl
        · rfl

/-- What a fit that returns leaves behind. -/
theorem dsFit_leaves (h : dsFit S inp o c = (.ok out, o')) : o'.core = o.bup ∧
    o'.der = derive o.dw o.vw o.bup.geom ∧ o'.bup = o.bup ∧ o'.dw = o.dw ∧ o'.vw = o.vw ∧ o'.testRange = o.testRange ∧
    o'.optimize = o.optimize ∧ o'.xnRange = o.xnRange ∧ o'.kInputList = o.kInputList ∧ o'.xnDefault = o.xnDefault ∧
    o'.kByXn = o.kByXn := by
  unfold dsFit at h
  rcases ht : (toSingle o c).core.data.eff c with _ | tab
  · simp [ht] at h
  rcases hp : inp.props c with _ | ⟨mv, mw⟩
  · simp [ht, hp] at h
  simp only [ht, hp] at h
  generalize dsBase (toSingle o c) c mv (dsCb0 inp mw (toSingle o c) c) = base at h
  rcases hl : dsLoop S c (interpExtrap tab) ((toSingle o c).core.kData c).brk base dsTests (toSingle o c) ⟨1e20, none⟩ []
    with ⟨e | ⟨b, rows⟩, o2⟩
  · rw [hl] at h; simp at h
  rw [hl] at h
  simp only at h
  obtain ⟨⟨r1, r2, r3, r4, r5, r6, r7, r8, r9⟩, -⟩ := dsLoop_ok hl
  rcases hv : b.val with _ | ⟨d, cv⟩
  · rw [hv] at h; simp at h
  · rw [hv] at h
    simp only [Prod.mk.injEq] at h
    obtain ⟨-, rfl⟩ := h
    refine ⟨r1, ?_, r1, r2, r3, r4, r5, r6, r7, r8, r9⟩
    show derive o2.dw o2.vw o2.bup.geom = _
    rw [r1, r2, r3]; rfl

/-- C131, what holds: if it returns, the rotation is that of the curves of the fits, every compound fitted as if alone,
and the object is as before. -/
theorem c131_partial {dsRow : String → Option ℝ} {daily : (ℝ → ℝ) → ℕ → ℝ} {filter : List String}
    {total per maxDays : ℕ} {target : ℝ} {r : ℕ × List ℝ} (hc : Spec.Clean o)
    (h : predictDs S inp dsRow daily filter total per maxDays target o = (.ok r, o')) :
    (∃ outs : List DsOut, List.Forall₂ (fun c out => (dsFit S inp o c).1 = .ok out) filter outs ∧
      r = predictFullScale total per maxDays (outs.map fun out => daily out.curve) target) ∧
    (∀ c ∈ filter, (dsRow c).isSome) ∧
    o'.core = o.core ∧ o'.der = o.der ∧ o'.bup = o.bup ∧ o'.testRange = o.testRange ∧ o'.optimize = o.optimize ∧
      o'.xnRange = o.xnRange := by
  obtain ⟨hc1, hc2⟩ := hc
  have loop : ∀ (l : List String) (a a' : GacObj) (acc cs : List (ℕ → ℝ)),
      (∃ cmp, a.core = { o.core with compounds := cmp }) → a.der = o.der → a.bup = o.bup → a.vw = o.vw → a.dw = o.dw →
      a.xnRange = o.xnRange → pdsLoop S inp dsRow daily l a acc = (.ok cs, a') →
      (∃ outs : List DsOut, List.Forall₂ (fun c out => (dsFit S inp o c).1 = .ok out) l outs ∧
        cs = acc ++ outs.map fun out => daily out.curve) ∧ (∀ c ∈ l, (dsRow c).isSome) ∧
      (∃ cmp, a'.core = { o.core with compounds := cmp }) ∧ a'.der = o.der ∧ a'.bup = o.bup ∧ a'.xnRange = o.xnRange := by
    intro l
    induction l with
    | nil =>
      intro a a' acc cs h1 h2 h3 h4 h5 h6 h
      simp only [pdsLoop, Prod.mk.injEq, Except.ok.injEq] at h
      obtain ⟨rfl, rfl⟩ := h
      exact ⟨⟨[], .nil, by simp⟩, by simp, h1, h2, h3, h6⟩
    | cons c l ih =>
      intro a a' acc cs h1 h2 h3 h4 h5 h6 h
      rw [pdsLoop] at h
      rcases hd : dsRow c with _ | d
      · rw [hd] at h; simp at h
      rw [hd] at h
      simp only at h
      rcases hf : dsFit S inp { a with testRange := [d] } c with ⟨e | out, a2⟩
      · rw [hf] at h; simp at h
      rw [hf] at h
      simp only at h
      obtain ⟨q1, q2, q3, q4, q5, -, -, q6, -⟩ := dsFit_leaves hf
      have hfit : (dsFit S inp o c).1 = .ok out := by
        have := dsFit_frame (S := S) (inp := inp) (c := c) (o1 := { a with testRange := [d] }) (o2 := o) (by
          obtain ⟨cmp, h1⟩ := h1
          simp only [toSingle, h1, h3]) h2 h4
        rw [← this, hf]
      obtain ⟨⟨outs, g1, g2⟩, g3, g4⟩ := ih a2 a' _ cs ⟨o.core.compounds, by rw [q1]; show a.bup = _; rw [h3, ← hc1]⟩
        (by rw [q2]; show derive a.dw a.vw a.bup.geom = _; rw [h3, h4, h5, hc2, hc1])
        (q3.trans h3) (q5.trans h4) (q4.trans h5) (q6.trans h6) h
      refine ⟨⟨out :: outs, .cons hfit g1, by rw [g2]; simp⟩, ?_, g4⟩
      intro x hx
      rcases List.mem_cons.1 hx with rfl | hx
      · rw [hd]; rfl
      · exact g3 x hx
  unfold predictDs at h
  rcases hl : pdsLoop S inp dsRow daily filter { o with optimize := false, core := { o.core with compounds := filter } } []
    with ⟨e | cs, a'⟩
  · rw [hl] at h; simp at h
  rw [hl] at h
  simp only [Prod.mk.injEq, Except.ok.injEq] at h
  obtain ⟨rfl, rfl⟩ := h
  obtain ⟨⟨outs, g1, g2⟩, g3, ⟨cmp, g4⟩, g5, g6, g7⟩ := loop filter
    { o with optimize := false, core := { o.core with compounds := filter } } a' [] cs ⟨filter, rfl⟩ rfl rfl rfl rfl rfl hl
  refine ⟨⟨outs, g1, by rw [g2, List.nil_append]⟩, g3, ?_, g5, g6, rfl, rfl, g7⟩
  simp only [g4]

/-- C131: if the first compound has no stored coefficient, `KeyError` and the object keeps the shortened list of
compounds, with optimization switched off. -/
theorem c131_missing {dsRow : String → Option ℝ} {daily : (ℝ → ℝ) → ℕ → ℝ} {filter : List String}
    {total per maxDays : ℕ} {target : ℝ} (h : dsRow c = none) :
    predictDs S inp dsRow daily (c :: filter) total per maxDays target o =
      (.error .keyError, { o with optimize := false, core := { o.core with compounds := c :: filter } }) := by
  unfold predictDs
  simp [pdsLoop, h]

/-- One bed changed every day, concentration constant. -/
theorem predict_const {d : ℝ} (h0 : 0 ≤ d) (h1 : d ≤ 1) : predictFullScale 1 1 2 [fun _ => d] 1 = (1, [d]) := by
  have hs : summedExt 2 [fun _ => d] 0 = d := by
    simp [summedExt, summedDaily, interpExtrap, List.range_succ, h0]
  unfold predictFullScale
  rw [show List.range' 1 (2 - 1) = [1] from rfl, rotLoop]
  have hb : blend (bedWeights 1 1) (bedGroups 1 1) (5 * 2) (summedExt 2 [fun _ => d]) 1 = .ok [d] := by
    rw [show bedGroups 1 1 = 1 from by decide]
    simp [blend, bedWeights, sliceLen, hs]
  rw [hb]
  simp only [List.mem_singleton, forall_eq, if_pos h1, rotLoop]

/-- The column of this example answers with the coefficient it is given, if that is between 0 and 1. -/
def exDsSim : Sim := fun co _ => (.ok fun c _ => max 0 (min 1 (co.mt c).ds), fun _ => ⟨0, 0, 0⟩)

theorem c131_false : ¬ C131 := by
  intro h
  have hS : ∀ co d, ∃ r, (exDsSim co d).1 = .ok r ∧
      ssqOf (exDsObj.core.kData "a").brk (r "a") (interpExtrap [(0, 0), (1, 1)]) < 1e20 := by
    intro co d
    refine ⟨_, rfl, ?_⟩
    have h0 : 0 ≤ max 0 (min 1 (co.mt "a").ds) := le_max_left _ _
    have h1 : max 0 (min 1 (co.mt "a").ds) ≤ 1 := max_le zero_le_one (min_le_left _ _)
    generalize max 0 (min 1 (co.mt "a").ds) = x at h0 h1
    simp only [ssqOf, exDsObj, exDsCore, Nat.ceil_one, interpExtrap]
    norm_num
    nlinarith
  obtain ⟨out, o1, e⟩ := c129_returns (S := exDsSim) (inp := ⟨1, fun _ => some (1, 1)⟩) (o := exDsObj) (c := "a")
    (tab := [(0, 0), (1, 1)]) rfl (p := (1, 1)) rfl hS
  have hr : ∀ d : ℝ, ∃ r o', predictDs exDsSim ⟨1, fun _ => some (1, 1)⟩ (fun _ => some d) (fun f k => f k) ["a"] 1 1 2 1
      exDsObj = (.ok r, o') := by
    intro d
    unfold predictDs
    rw [pdsLoop]
    simp only
    have := dsFit_frame (S := exDsSim) (inp := ⟨1, fun _ => some (1, 1)⟩) (c := "a")
      (o1 := { exDsObj with optimize := false, core := { exDsObj.core with compounds := ["a"] }, testRange := [d] })
      (o2 := exDsObj) rfl rfl rfl
    rw [e] at this
    rcases hf : dsFit exDsSim ⟨1, fun _ => some (1, 1)⟩
      { exDsObj with optimize := false, core := { exDsObj.core with compounds := ["a"] }, testRange := [d] } "a" with ⟨er | out2, o2⟩
    · rw [hf] at this; simp at this
    · simp only [pdsLoop]
      exact ⟨_, _, rfl⟩
  have hval : ∀ d : ℝ, 0 ≤ d → d ≤ 1 → (predictDs exDsSim ⟨1, fun _ => some (1, 1)⟩ (fun _ => some d) (fun f k => f k) ["a"]
      1 1 2 1 exDsObj).1 = .ok (1, [d]) := by
    intro d h0 h1
    obtain ⟨r, o', e2⟩ := hr d
    obtain ⟨res, hs, hr2⟩ := h exDsSim _ _ _ exDsObj "a" d 1 1 2 1 r o' ⟨rfl, rfl⟩ rfl e2
    have : (fun k : ℕ => res "a" (k : ℝ)) = fun _ => d := by
      have : res = fun c _ => if c = "a" then d else 0 := by
        have := Except.ok.inj hs.symm
        rw [this]
        funext c t
        by_cases hc : c = "a"
        · simp [hc, h0, h1]
        · simp [hc, exDsObj, exDsCore]
      rw [this]; simp
    rw [e2, hr2, this, predict_const h0 h1]
  have h1 := hval 0 le_rfl zero_le_one
  have h2 := hval 1 zero_le_one le_rfl
  rw [c131_ignored (dsRow' := fun _ => some (1 : ℝ)) (by simp) (by simp), h2] at h1
  simp at h1

end
end WTM
