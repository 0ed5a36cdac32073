import Mathlib.Tactic.Linarith
import Mathlib.Tactic.FieldSimp
import Mathlib.Tactic.NormNum
import Mathlib.Tactic.Ring
import Mathlib.Tactic.Positivity
import Mathlib.Tactic.IntervalCases
import Verif.Props.GacState

/-! Properties C53 and C54: the smart search over `K` and `1/n` of `run_all_smart`. -/
set_option autoImplicit false
namespace WTM

/-! ### What a trial's error is -/

/-- The error of a pair of constants for one compound: the squared deviation of the simulated from the
observed curve, or 1e20 when the simulation raises or there is no observed curve. -/
noncomputable def Spec.fitError (S : Sim) (o : GacObj) (c : String) (K x : ℝ) : ℝ :=
  match o.bup.data.eff c with
  | none => 1e20
  | some tab =>
    match Spec.trialCurve S o c K x with
    | .error _ => 1e20
    | .ok res => ∑ k ∈ Finset.range ⌈(o.core.kData c).brk⌉₊, (res c k - interpExtrap tab k) ^ 2

/-- Column, mass transfer, isotherm table and derived values as in the backups; the compound list may be
that of an interrupted single-compound run. -/
def Spec.Ready (o : GacObj) : Prop :=
  o.core.geom = o.bup.geom ∧ o.core.mt = o.bup.mt ∧ o.core.kData = o.bup.kData ∧
    o.der = derive o.dw o.vw o.bup.geom

theorem Clean.ready {o : GacObj} (h : Spec.Clean o) : Spec.Ready o := by
  obtain ⟨h1, h2⟩ := h
  exact ⟨by rw [h1], by rw [h1], by rw [h1], by rw [h2, h1]⟩

/-- The object during a search: as at its start, except for the `K` and `1/n` of the compound and what a
single-compound run sets anew. -/
def Frame (c : String) (o0 o : GacObj) : Prop :=
  Spec.SameRest o0 o ∧ o.optimize = o0.optimize ∧ o.der = o0.der ∧ o.core.geom = o0.core.geom ∧
    o.core.mt = o0.core.mt ∧ ∃ k x, o.core.kData = o0.core.kData.set c k x

theorem Frame.refl (c : String) (o : GacObj) : Frame c o o :=
  ⟨SameRest.refl o, rfl, rfl, rfl, rfl, _, _, (KTab.set_self _ c).symm⟩

theorem Frame.set {c : String} {o0 o : GacObj} (h : Frame c o0 o) (K x : ℝ) :
    Frame c o0 { o with core := { o.core with kData := o.core.kData.set c K x } } := by
  obtain ⟨h1, h2, h3, h4, h5, k, x', h6⟩ := h
  exact ⟨SameRest.trans h1 (SameRest.refl _), h2, h3, h4, h5, K, x, by
    show o.core.kData.set c K x = _
    rw [h6, KTab.set_set]⟩

theorem Frame.single {c : String} {o0 o : GacObj} (h : Frame c o0 o) {K x : ℝ}
    (hk : o.core.kData = o0.core.kData.set c K x) :
    (S : Sim) → (S (toSingle o c).core (toSingle o c).der).1 = Spec.trialCurve S o0 c K x := by
  intro S
  obtain ⟨⟨b, -⟩, -, h3, h4, h5, -⟩ := h
  rw [trialCurve_set]
  have e : (toSingle o c).core =
      { (toSingle o0 c).core with kData := KTab.set (toSingle o0 c).core.kData c K x } := by
    show Core.mk _ _ _ _ _ _ _ _ = Core.mk _ _ _ _ _ _ _ _
    simp only [Core.mk.injEq]
    exact ⟨h4, hk, by rw [b]; rfl, rfl, rfl, rfl, rfl, h5⟩
  rw [e]
  show (S _ o.der).1 = (S _ o0.der).1
  rw [h3]

/-- The error used for a trial is that of its constants. -/
theorem trial_error {S : Sim} {c : String} {o0 o : GacObj} (h : Frame c o0 o) {K x : ℝ}
    (hk : o.core.kData = o0.core.kData.set c K x) (hl : o0.kInputList = false) (ho : o0.optimize = false) :
    trialSsq (runKfit S o c).1 = Spec.fitError S o0 c K x := by
  obtain ⟨⟨b, -, -, -, -, hin, -⟩, hop, -⟩ := id h
  obtain ⟨f1, f2, f3, f4⟩ := kfitFlag_rest (toSingle o c)
  have hopt : (kfitFlag (toSingle o c)).optimize = false := by
    rw [f4]
    split
    · rfl
    · exact hop.trans ho
  have hinp : (kfitFlag (toSingle o c)).kInputList = false := by
    obtain ⟨-, -, -, -, -, f, -⟩ := f1
    rw [f]; exact hin.trans hl
  have hs := Frame.single h hk S
  rw [← f2, ← f3] at hs
  have hb : ((kfitFlag (toSingle o c)).core.kData c).brk = (o0.core.kData c).brk := by
    rw [f2]
    show (o.core.kData c).brk = _
    rw [hk]
    show (if c = c then _ else _ : KCol).brk = _
    rw [if_pos rfl]
  unfold runKfit Spec.fitError
  rw [toSingle_eff, b]
  cases o0.bup.data.eff c with
  | none => rfl
  | some tab =>
    simp only [kfitBody, hopt, hinp]
    simp only [Bool.false_eq_true, if_false, false_and]
    unfold kfitPlain
    simp only [runPsdm]
    cases hr : Spec.trialCurve S o0 c K x with
    | error e =>
      rw [hr] at hs
      simp only [hs, trialSsq]
    | ok res =>
      rw [hr] at hs
      simp only [hs, trialSsq]
      rw [hb, c83_sum]

/-- A run keeps the frame. -/
theorem Frame.run {S : Sim} {c : String} {o0 o : GacObj} (h : Frame c o0 o) (hr : Spec.Ready o0)
    (ho : o0.optimize = false) : Frame c o0 (runKfit S o c).2 := by
  obtain ⟨g1, g2, g3, g4⟩ := runKfit_ok S o c
  obtain ⟨h1, h2, h3, h4, h5, k, x, h6⟩ := h
  obtain ⟨q1, q2, q3, q4⟩ := hr
  have hopt : (runKfit S o c).2.optimize = o0.optimize := by
    rw [g2, h2, ho]
    split <;> rfl
  refine ⟨SameRest.trans h1 g1, hopt, ?_⟩
  cases hres : (runKfit S o c).1 with
  | ok out =>
    obtain ⟨a, b⟩ := g3 ⟨out, hres⟩
    obtain ⟨r1, r2, r3, -⟩ := h1
    rw [a, b, r1, r2, r3]
    exact ⟨q4.symm, q1.symm, q2.symm, _, _, (q3.symm.trans (KTab.set_self _ c).symm)⟩
  | error e =>
    obtain ⟨a, k', x', b⟩ := g4 ⟨e, hres⟩
    rw [a, b]
    refine ⟨h3, h4, h5, k', x', ?_⟩
    show o.core.kData.set c k' x' = _
    rw [h6, KTab.set_set]

/-! ### The invariant of the search -/

/-- Kept by every look at the grid. -/
structure Good (S : Sim) (c : String) (o0 : GacObj) (nk nx : ℕ) (s : Srch) : Prop where
  frame : Frame c o0 s.obj
  errs : ∀ t ∈ s.trials, t.2.2 = Spec.fitError S o0 c t.1 t.2.1
  cache : ∀ a b v, s.store a b = some v → ∃ t ∈ s.trials, t.2.2 = v
  range : ∀ p ∈ s.touched, 0 ≤ p.1 ∧ p.1 < nk ∧ 0 ≤ p.2 ∧ p.2 < nx

/-- The point kept is one of the trials, and none of them has a smaller error. -/
def Best (s : Srch) : Prop :=
  (s.bestK, s.bestXn, s.bestSsq) ∈ s.trials ∧ ∀ t ∈ s.trials, s.bestSsq ≤ t.2.2

theorem getSsq_good {S : Sim} {c : String} {o0 : GacObj} {nk nx : ℕ} {s : Srch}
    (hr : Spec.Ready o0) (hl : o0.kInputList = false) (ho : o0.optimize = false)
    (h : Good S c o0 nk nx s) (base kf xn : ℝ) {ki xi : ℤ}
    (hk0 : 0 ≤ ki) (hk : ki < nk) (hx0 : 0 ≤ xi) (hx : xi < nx) :
    Good S c o0 nk nx (getSsq S c base kf xn ki xi s).2 ∧
    (getSsq S c base kf xn ki xi s).2.bestK = s.bestK ∧
    (getSsq S c base kf xn ki xi s).2.bestXn = s.bestXn ∧
    (getSsq S c base kf xn ki xi s).2.bestSsq = s.bestSsq ∧
    (((getSsq S c base kf xn ki xi s).2.trials = s.trials ∧
        ∃ t ∈ s.trials, t.2.2 = (getSsq S c base kf xn ki xi s).1) ∨
     (s.store ki xi = none ∧ (getSsq S c base kf xn ki xi s).2.trials =
        (base * kf, xn, (getSsq S c base kf xn ki xi s).1) :: s.trials)) := by
  have hf := Frame.set h.frame (base * kf) xn
  have hkd : ({ s.obj with core := { s.obj.core with kData := s.obj.core.kData.set c (base * kf) xn } } :
      GacObj).core.kData = o0.core.kData.set c (base * kf) xn := by
    obtain ⟨-, -, -, -, -, k, x, h6⟩ := h.frame
    show s.obj.core.kData.set c (base * kf) xn = _
    rw [h6, KTab.set_set]
  unfold getSsq
  simp only
  split
  · rename_i v hv
    refine ⟨⟨hf, h.errs, h.cache, fun p hp => ?_⟩, rfl, rfl, rfl, Or.inl ⟨rfl, h.cache _ _ _ hv⟩⟩
    rcases List.mem_cons.1 hp with rfl | hp
    · exact ⟨hk0, hk, hx0, hx⟩
    · exact h.range p hp
  · rename_i hv
    refine ⟨⟨Frame.run hf hr ho, fun t ht => ?_, fun a b v hab => ?_, fun p hp => ?_⟩, rfl, rfl, rfl,
      Or.inr ⟨hv, rfl⟩⟩
    · rcases List.mem_cons.1 ht with rfl | ht
      · exact trial_error hf hkd hl ho
      · exact h.errs t ht
    · simp only at hab
      split at hab
      · exact ⟨_, List.mem_cons_self, Option.some.inj hab⟩
      · obtain ⟨t, ht, e⟩ := h.cache a b v hab
        exact ⟨t, List.mem_cons_of_mem _ ht, e⟩
    · rcases List.mem_cons.1 hp with rfl | hp
      · exact ⟨hk0, hk, hx0, hx⟩
      · exact h.range p hp

theorem probe_good {S : Sim} {c : String} {o0 : GacObj} {nk nx : ℕ} {s : Srch}
    (hr : Spec.Ready o0) (hl : o0.kInputList = false) (ho : o0.optimize = false)
    (h : Good S c o0 nk nx s) (hb : Best s) (base kf xn : ℝ) {ki xi : ℤ}
    (hk0 : 0 ≤ ki) (hk : ki < nk) (hx0 : 0 ≤ xi) (hx : xi < nx) :
    Good S c o0 nk nx (probe S c base kf xn ki xi s).2 ∧ Best (probe S c base kf xn ki xi s).2 := by
  obtain ⟨g, e1, e2, e3, e4⟩ := getSsq_good hr hl ho h base kf xn hk0 hk hx0 hx
  unfold probe
  simp only
  split
  · rename_i hlt
    refine ⟨⟨g.frame, g.errs, g.cache, g.range⟩, ?_⟩
    rw [e3] at hlt
    rcases e4 with ⟨ht, t, hm, hv⟩ | ⟨-, ht⟩
    · exact absurd hlt (by rw [← hv]; exact not_lt.2 (hb.2 t hm))
    · refine ⟨?_, fun t hm => ?_⟩
      · show (kf * base, xn, _) ∈ (getSsq S c base kf xn ki xi s).2.trials
        rw [ht, mul_comm kf base]
        exact List.mem_cons_self
      · show (getSsq S c base kf xn ki xi s).1 ≤ _
        have hm : t ∈ (getSsq S c base kf xn ki xi s).2.trials := hm
        rw [ht] at hm
        rcases List.mem_cons.1 hm with rfl | hm
        · exact le_rfl
        · exact le_trans hlt.le (hb.2 t hm)
  · rename_i hlt
    refine ⟨g, ?_⟩
    rw [e3] at hlt
    unfold Best
    rw [e1, e2, e3]
    rcases e4 with ⟨ht, -⟩ | ⟨-, ht⟩
    · rw [ht]; exact hb
    · rw [ht]
      refine ⟨List.mem_cons_of_mem _ hb.1, fun t hm => ?_⟩
      rcases List.mem_cons.1 hm with rfl | hm
      · exact not_lt.1 hlt
      · exact hb.2 t hm

/-- `K` kept for a best point: itself when positive. -/
def SavedK (bestK k : ℝ) : Prop := k = bestK ∨ (bestK ≤ 0 ∧ k = 1e-6)

/-- The object at the end of a search: its `K` and `1/n` for the compound are those kept, in the table and
in its backup. -/
structure Done (c : String) (o0 : GacObj) (s : Srch) : Prop where
  k : SavedK s.bestK (s.obj.core.kData c).K
  xn : (s.obj.core.kData c).xn = s.bestXn
  brk : (s.obj.core.kData c).brk = (o0.core.kData c).brk
  aveC : (s.obj.core.kData c).aveC = (o0.core.kData c).aveC
  others : ∀ c', c' ≠ c → s.obj.core.kData c' = o0.core.kData c'
  bup : s.obj.bup = { o0.bup with kData := s.obj.core.kData }
  ready : Spec.Ready s.obj
  rest : s.obj.kInputList = o0.kInputList ∧ s.obj.optimize = o0.optimize ∧ s.obj.dw = o0.dw ∧
    s.obj.vw = o0.vw ∧ s.obj.testRange = o0.testRange ∧ s.obj.xnRange = o0.xnRange ∧
    s.obj.xnDefault = o0.xnDefault ∧ s.obj.kByXn = o0.kByXn

theorem probeIf_good {S : Sim} {c : String} {o0 : GacObj} {nk nx : ℕ} {s : Srch}
    (hr : Spec.Ready o0) (hl : o0.kInputList = false) (ho : o0.optimize = false)
    (h : Good S c o0 nk nx s ∧ Best s) (there : Bool) (base kf xn : ℝ) {ki xi : ℤ}
    (hin : there = true → 0 ≤ ki ∧ ki < nk ∧ 0 ≤ xi ∧ xi < nx) :
    Good S c o0 nk nx (probeIf S c there base kf xn ki xi s).2 ∧
      Best (probeIf S c there base kf xn ki xi s).2 := by
  unfold probeIf
  split
  · rename_i ht
    obtain ⟨h1, h2, h3, h4⟩ := hin ht
    exact probe_good hr hl ho h.1 h.2 base kf xn h1 h2 h3 h4
  · exact h

theorem lookAround_good {S : Sim} {c : String} {o0 : GacObj} {ks xs : List ℝ} {s : Srch}
    (hr : Spec.Ready o0) (hl : o0.kInputList = false) (ho : o0.optimize = false)
    (h : Good S c o0 ks.length xs.length s) (hb : Best s) {ki xi : ℤ}
    (hk0 : 0 ≤ ki) (hk : ki < ks.length) (hx0 : 0 ≤ xi) (hx : xi < xs.length) :
    Good S c o0 ks.length xs.length (lookAround S c ks xs ki xi s).srch ∧
      Best (lookAround S c ks xs ki xi s).srch := by
  refine probeIf_good hr hl ho (probeIf_good hr hl ho (probeIf_good hr hl ho (probeIf_good hr hl ho
    (probe_good hr hl ho h hb _ _ _ hk0 hk hx0 hx) _ _ _ _ ?_) _ _ _ _ ?_) _ _ _ _ ?_) _ _ _ _ ?_ <;>
  · intro ht
    have ht := of_decide_eq_true ht
    omega

theorem shiftOf_in {up down base : ℝ} {i : ℤ} {n : ℕ} (h0 : 0 ≤ i) (h : i < n) :
    0 ≤ i + shiftOf up down base i n ∧ i + shiftOf up down base i n < n := by
  unfold shiftOf
  split
  · omega
  · split <;> omega

theorem saveBest_done {S : Sim} {c : String} {o0 : GacObj} {nk nx : ℕ} {s : Srch} (hr : Spec.Ready o0)
    (h : Good S c o0 nk nx s) {k : ℝ} (q : ℝ) (hs : SavedK s.bestK k) : Done c o0 (saveBest c k q s) := by
  obtain ⟨⟨r1, r2, r3, r4, r5, r6, r7, r8⟩, f2, f3, f4, f5, k', x', f6⟩ := h.frame
  obtain ⟨q1, q2, q3, q4⟩ := hr
  have hcc : s.obj.core.kData c =
      ⟨k', x', (o0.core.kData c).q, (o0.core.kData c).brk, (o0.core.kData c).aveC⟩ := by
    rw [f6]
    show (if c = c then _ else _) = _
    rw [if_pos rfl]
  refine ⟨?_, ?_, ?_, ?_, fun c' hc => ?_, ?_, ⟨?_, ?_, rfl, ?_⟩, ⟨r6, f2, r2, r3, r4, r5, r7, r8⟩⟩
  · show SavedK _ (if c = c then _ else _ : KCol).K
    rw [if_pos rfl]; exact hs
  · show (if c = c then _ else _ : KCol).xn = _
    rw [if_pos rfl]; rfl
  · show (if c = c then _ else _ : KCol).brk = _
    rw [if_pos rfl, hcc]
  · show (if c = c then _ else _ : KCol).aveC = _
    rw [if_pos rfl, hcc]
  · show (if c' = c then _ else _) = _
    rw [if_neg hc, f6]
    exact if_neg hc
  · show ({ s.obj.bup with kData := _ } : Core) = _
    rw [r1]
    rfl
  · show s.obj.core.geom = s.obj.bup.geom
    rw [f4, r1, q1]
  · show s.obj.core.mt = s.obj.bup.mt
    rw [f5, r1, q2]
  · show s.obj.der = derive s.obj.dw s.obj.vw s.obj.bup.geom
    rw [f3, r1, r2, r3, q4]

theorem smartDecide_good {S : Sim} {c : String} {o0 : GacObj} {nk nx : ℕ} {s : Srch} (hr : Spec.Ready o0)
    (h : Good S c o0 nk nx s) (hb : Best s) (limit : ℝ) (loops : ℕ) (xi ki sx sk : ℤ) (base : ℝ) :
    (smartDecide c limit loops xi ki sx sk base s).2.loops = loops ∧
    (smartDecide c limit loops xi ki sx sk base s).2.xnIdx = xi ∧
    (smartDecide c limit loops xi ki sx sk base s).2.kIdx = ki ∧
    (smartDecide c limit loops xi ki sx sk base s).2.shiftXn = sx ∧
    (smartDecide c limit loops xi ki sx sk base s).2.shiftK = sk ∧
    Best (smartDecide c limit loops xi ki sx sk base s).2.srch ∧
    (smartDecide c limit loops xi ki sx sk base s).2.srch.trials = s.trials ∧
    (smartDecide c limit loops xi ki sx sk base s).2.srch.touched = s.touched ∧
    ((smartDecide c limit loops xi ki sx sk base s).1 = true →
      Done c o0 (smartDecide c limit loops xi ki sx sk base s).2.srch) ∧
    ((smartDecide c limit loops xi ki sx sk base s).1 = false →
      (smartDecide c limit loops xi ki sx sk base s).2.srch = s ∧ (loops : ℝ) < limit) := by
  unfold smartDecide
  split
  · split
    · rename_i hneg
      exact ⟨rfl, rfl, rfl, rfl, rfl, hb, rfl, rfl,
        fun _ => saveBest_done hr h _ (Or.inr ⟨hneg, rfl⟩), fun h => (by cases h)⟩
    · exact ⟨rfl, rfl, rfl, rfl, rfl, hb, rfl, rfl,
        fun _ => saveBest_done hr h _ (Or.inl rfl), fun h => (by cases h)⟩
  · rename_i hstop
    push Not at hstop
    split
    · exact ⟨rfl, rfl, rfl, rfl, rfl, hb, rfl, rfl,
        fun _ => saveBest_done hr h _ (Or.inl rfl), fun h => (by cases h)⟩
    · exact ⟨rfl, rfl, rfl, rfl, rfl, hb, rfl, rfl, fun h => (by cases h), fun _ => ⟨rfl, hstop.2⟩⟩

/-- One pass keeps the invariant and the position in the grid; a pass that ends the loop stores the best
point; one that does not has made fewer than `limit` passes. -/
theorem smartIter_good {S : Sim} {c : String} {o0 : GacObj} {ks xs : List ℝ} {limit : ℝ} {l : LoopSt}
    (hr : Spec.Ready o0) (hl : o0.kInputList = false) (ho : o0.optimize = false)
    (h : Good S c o0 ks.length xs.length l.srch) (hb : Best l.srch)
    (hk0 : 0 ≤ l.kIdx + l.shiftK) (hk : l.kIdx + l.shiftK < ks.length)
    (hx0 : 0 ≤ l.xnIdx + l.shiftXn) (hx : l.xnIdx + l.shiftXn < xs.length) {b : Bool} {l1 : LoopSt}
    (he : smartIter S c ks xs limit l = (b, l1)) :
    l1.loops = l.loops + 1 ∧ Best l1.srch ∧
    (∀ t ∈ l1.srch.trials, t.2.2 = Spec.fitError S o0 c t.1 t.2.1) ∧
    (∀ p ∈ l1.srch.touched, 0 ≤ p.1 ∧ p.1 < ks.length ∧ 0 ≤ p.2 ∧ p.2 < xs.length) ∧
    (b = true → Done c o0 l1.srch) ∧
    (b = false → Good S c o0 ks.length xs.length l1.srch ∧
      0 ≤ l1.kIdx + l1.shiftK ∧ l1.kIdx + l1.shiftK < ks.length ∧
      0 ≤ l1.xnIdx + l1.shiftXn ∧ l1.xnIdx + l1.shiftXn < xs.length ∧ ((l.loops + 1 : ℕ) : ℝ) < limit) := by
  unfold smartIter at he
  simp only at he
  obtain ⟨g, gb⟩ := lookAround_good hr hl ho h hb hk0 hk hx0 hx
  generalize lookAround S c ks xs (l.kIdx + l.shiftK) (l.xnIdx + l.shiftXn) l.srch = a at *
  have hsx := shiftOf_in (up := a.right) (down := a.left) (base := a.base) hx0 hx
  have hsk := shiftOf_in (up := a.upper) (down := a.lower) (base := a.base) hk0 hk
  obtain ⟨d1, d2, d3, d4, d5, d6, d7, d8, d9, d10⟩ := smartDecide_good hr g gb limit (l.loops + 1)
    (l.xnIdx + l.shiftXn) (l.kIdx + l.shiftK)
    (shiftOf a.right a.left a.base (l.xnIdx + l.shiftXn) xs.length)
    (shiftOf a.upper a.lower a.base (l.kIdx + l.shiftK) ks.length) a.base
  rw [he] at d1 d2 d3 d4 d5 d6 d7 d8 d9 d10
  simp only at d1 d2 d3 d4 d5 d6 d7 d8 d9 d10
  refine ⟨d1, d6, fun t ht => g.errs t (d7 ▸ ht), fun p hp => g.range p (d8 ▸ hp), d9, fun hb' => ?_⟩
  obtain ⟨e1, e2⟩ := d10 hb'
  rw [e1, d2, d3, d4, d5]
  exact ⟨g, hsk.1, hsk.2, hsx.1, hsx.2, e2⟩

/-- What a finished search guarantees. -/
structure Spec.Finished (S : Sim) (c : String) (o0 : GacObj) (nk nx : ℕ) (s : Srch) : Prop where
  best : Best s
  errs : ∀ t ∈ s.trials, t.2.2 = Spec.fitError S o0 c t.1 t.2.1
  range : ∀ p ∈ s.touched, 0 ≤ p.1 ∧ p.1 < nk ∧ 0 ≤ p.2 ∧ p.2 < nx
  done : Done c o0 s

/-- The loop ends within the passes left. -/
theorem smartLoop_ends {S : Sim} {c : String} {o0 : GacObj} {ks xs : List ℝ} {limit : ℝ}
    (hr : Spec.Ready o0) (hl : o0.kInputList = false) (ho : o0.optimize = false) :
    ∀ (fuel : ℕ) (l : LoopSt), Good S c o0 ks.length xs.length l.srch → Best l.srch →
      0 ≤ l.kIdx + l.shiftK → l.kIdx + l.shiftK < ks.length →
      0 ≤ l.xnIdx + l.shiftXn → l.xnIdx + l.shiftXn < xs.length →
      0 < fuel → limit ≤ (l.loops + fuel : ℕ) →
      ∃ l', smartLoop S c ks xs limit fuel l = some l' ∧ l'.loops ≤ l.loops + fuel ∧ l.loops < l'.loops ∧
        Spec.Finished S c o0 ks.length xs.length l'.srch
  | 0, l, _, _, _, _, _, _, hf, _ => absurd hf (lt_irrefl 0)
  | fuel + 1, l, h, hb, a1, a2, a3, a4, _, hlim => by
    unfold smartLoop
    cases hit : smartIter S c ks xs limit l with
    | mk b l1 =>
    obtain ⟨e1, e2, e3, e4, e5, e6⟩ := smartIter_good (limit := limit) hr hl ho h hb a1 a2 a3 a4 hit
    cases b with
    | true => exact ⟨l1, rfl, by omega, by omega, e2, e3, e4, e5 rfl⟩
    | false =>
      obtain ⟨g, c1, c2, c3, c4, c5⟩ := e6 rfl
      have hpos : 0 < fuel := by
        rcases Nat.eq_zero_or_pos fuel with h0 | h0
        · subst h0
          exact absurd c5 (not_lt.2 hlim)
        · exact h0
      have hlim' : limit ≤ ((l1.loops + fuel : ℕ) : ℝ) := by
        have : l1.loops + fuel = l.loops + (fuel + 1) := by omega
        rw [this]; exact hlim
      obtain ⟨l', f1, f2, f3, f4⟩ := smartLoop_ends hr hl ho fuel l1 g e2 c1 c2 c3 c4 hpos hlim'
      exact ⟨l', f1, by omega, by omega, f4⟩

/-- The rough search looks at positions of the grid only. -/
theorem roundN_zero_mem {n : ℕ} {y : ℝ} (h0 : 0 ≤ y) (hn : y ≤ n) :
    0 ≤ ⌊roundN 0 y⌋ ∧ ⌊roundN 0 y⌋ ≤ n := by
  unfold roundN
  simp only [pow_zero, mul_one, div_one]
  rw [Int.floor_intCast]
  have hf0 : 0 ≤ ⌊y⌋ := Int.floor_nonneg.2 h0
  have hfn : ⌊y⌋ ≤ n := by
    have : (⌊y⌋ : ℝ) ≤ n := le_trans (Int.floor_le y) hn
    exact_mod_cast this
  have hstep : ¬ (y - ⌊y⌋ < 1 / 2) → ⌊y⌋ + 1 ≤ n := by
    intro hh
    rcases lt_or_eq_of_le hfn with hlt | heq
    · omega
    · exfalso
      apply hh
      rw [heq]
      have : ((n : ℤ) : ℝ) = n := by push_cast; rfl
      rw [this]
      linarith
  split
  · exact ⟨hf0, hfn⟩
  · rename_i hh
    have := hstep hh
    split
    · omega
    · split <;> omega

theorem roughIdx_mem {xMax : ℕ} {i : ℤ} (h : i ∈ roughIdx xMax) : 0 ≤ i ∧ i ≤ xMax := by
  unfold roughIdx at h
  obtain ⟨k, hk, rfl⟩ := List.mem_map.1 h
  have hk : k < 5 := List.mem_range.1 hk
  have hk' : (k : ℝ) ≤ 4 := by exact_mod_cast Nat.lt_succ_iff.1 hk
  have hx : (0 : ℝ) ≤ xMax := Nat.cast_nonneg _
  refine roundN_zero_mem (by positivity) ?_
  rw [div_le_iff₀ (by norm_num)]
  nlinarith

theorem rough_good {S : Sim} {c : String} {o0 : GacObj} {ks xs : List ℝ} {ki : ℤ}
    (hr : Spec.Ready o0) (hl : o0.kInputList = false) (ho : o0.optimize = false)
    (hk0 : 0 ≤ ki) (hk : ki < ks.length) :
    ∀ (L : List ℤ) (acc : Srch × ℤ), (∀ i ∈ L, 0 ≤ i ∧ i < xs.length) →
      Good S c o0 ks.length xs.length acc.1 → Best acc.1 → 0 ≤ acc.2 → acc.2 < xs.length →
      Good S c o0 ks.length xs.length (L.foldl (roughStep S c ks xs ki) acc).1 ∧
      Best (L.foldl (roughStep S c ks xs ki) acc).1 ∧
      0 ≤ (L.foldl (roughStep S c ks xs ki) acc).2 ∧ (L.foldl (roughStep S c ks xs ki) acc).2 < xs.length
  | [], acc, _, g, b, h0, h1 => ⟨g, b, h0, h1⟩
  | i :: L, acc, hL, g, b, h0, h1 => by
    obtain ⟨i0, i1⟩ := hL i List.mem_cons_self
    obtain ⟨g', b'⟩ := probe_good hr hl ho g b (baseK c (gridAt xs i) acc.1) (gridAt ks ki) (gridAt xs i)
      hk0 hk i0 i1
    have hpos : 0 ≤ (roughStep S c ks xs ki acc i).2 ∧ (roughStep S c ks xs ki acc i).2 < xs.length := by
      unfold roughStep
      simp only
      split
      · exact ⟨i0, i1⟩
      · exact ⟨h0, h1⟩
    exact rough_good hr hl ho hk0 hk L (roughStep S c ks xs ki acc i)
      (fun j hj => hL j (List.mem_cons_of_mem _ hj)) g' b' hpos.1 hpos.2

/-- C54. The search for a compound, started from a clean column and any simulation: once its grids exist and
contain the start, it returns; it makes at most `max 1 ⌈search_limit⌉` passes; every position it looks at is
inside the grid; every error is that of its own constants; and the constants stored are those of the trial
with the smallest error (with `K` replaced by 1e-6 only where the best `K` is not positive). -/
theorem c54_search {S : Sim} {c : String} {o0 : GacObj} {bkf pm num desXn limit : ℝ} {ks xs : List ℝ}
    (hr : Spec.Ready o0) (hl : o0.kInputList = false) (ho : o0.optimize = false)
    (hg : smartGrids bkf pm num desXn = .ok (ks, xs)) (hk : roundN 6 bkf ∈ ks) (hx : roundN 3 0.45 ∈ xs) :
    ∃ l, smartCompound S c bkf pm num desXn limit o0 = .ok l ∧ 1 ≤ l.loops ∧ l.loops ≤ max 1 ⌈limit⌉₊ ∧
      Spec.Finished S c o0 ks.length xs.length l.srch := by
  classical
  unfold smartCompound
  rw [hg]
  simp only [bind, Except.bind]
  have hki : ∃ i, ks.findIdx? (fun k => decide (k = roundN 6 bkf)) = some i := by
    rw [← Option.isSome_iff_exists, List.findIdx?_isSome, List.any_eq_true]
    exact ⟨_, hk, by simp⟩
  have hxi : ∃ i, xs.findIdx? (fun k => decide (k = roundN 3 0.45)) = some i := by
    rw [← Option.isSome_iff_exists, List.findIdx?_isSome, List.any_eq_true]
    exact ⟨_, hx, by simp⟩
  obtain ⟨ki, hki⟩ := hki
  obtain ⟨xi, hxi⟩ := hxi
  have hkl : ki < ks.length := by
    obtain ⟨h, -⟩ := List.findIdx?_eq_some_iff_getElem.1 hki
    exact h
  have hxl : xi < xs.length := by
    obtain ⟨h, -⟩ := List.findIdx?_eq_some_iff_getElem.1 hxi
    exact h
  have hki' : ks.findIdx? (fun k => @decide (k = roundN 6 bkf) (Classical.propDecidable _)) = some ki := by
    rw [← hki]
  have hxi' : xs.findIdx? (fun k => @decide (k = roundN 3 0.45) (Classical.propDecidable _)) = some xi := by
    rw [← hxi]
  rw [hki', hxi']
  simp only
  have gs : Good S c o0 ks.length xs.length ⟨o0, fun _ _ => none, 0.45, 0, 0, [], []⟩ :=
    ⟨Frame.refl c o0, fun t ht => (by cases ht), fun a b v h => (by cases h), fun p hp => (by cases hp)⟩
  obtain ⟨g1, -, e2, -, e4⟩ := getSsq_good hr hl ho gs
    (baseK c 0.45 ⟨o0, fun _ _ => none, 0.45, 0, 0, [], []⟩) bkf 0.45 (ki := ki) (xi := xi)
    (by omega) (by omega) (by omega) (by omega)
  generalize baseK c 0.45 ⟨o0, fun _ _ => none, 0.45, 0, 0, [], []⟩ = b at *
  generalize getSsq S c b bkf 0.45 ki xi ⟨o0, fun _ _ => none, 0.45, 0, 0, [], []⟩ = r at *
  rcases e4 with ⟨-, t, ht, -⟩ | ⟨-, ht⟩
  · cases ht
  have g2 : Good S c o0 ks.length xs.length { r.2 with bestK := b * bkf, bestSsq := r.1 } :=
    ⟨g1.frame, g1.errs, g1.cache, g1.range⟩
  have b2 : Best { r.2 with bestK := b * bkf, bestSsq := r.1 } := by
    unfold Best
    simp only [e2, ht]
    refine ⟨List.mem_cons_self, fun t htt => ?_⟩
    rw [List.mem_singleton.1 htt]
  have hpos : 0 < xs.length := by omega
  obtain ⟨g3, b3, x0, x1⟩ := rough_good hr hl ho (ki := ki) (ks := ks) (by omega) (by omega)
    (roughIdx (xs.length - 1)) ({ r.2 with bestK := b * bkf, bestSsq := r.1 }, (xi : ℤ))
    (fun i hi => by have := roughIdx_mem hi; omega) g2 b2 (by simp) (by simp; omega)
  obtain ⟨l', f1, f2, f3, f4⟩ := smartLoop_ends (limit := limit) hr hl ho (max 1 ⌈limit⌉₊)
    ⟨((roughIdx (xs.length - 1)).foldl (roughStep S c ks xs ki)
      ({ r.2 with bestK := b * bkf, bestSsq := r.1 }, (xi : ℤ))).1,
      ((roughIdx (xs.length - 1)).foldl (roughStep S c ks xs ki)
      ({ r.2 with bestK := b * bkf, bestSsq := r.1 }, (xi : ℤ))).2, ki, 0, 0, 0⟩ g3 b3
    (by simp) (by simpa using hkl) (by simpa using x0) (by simpa using x1) (by simp)
    (by
      simp only [zero_add]
      exact le_trans (Nat.le_ceil limit) (by exact_mod_cast le_max_right 1 ⌈limit⌉₊))
  rw [f1]
  simp only at f2 f3
  exact ⟨l', rfl, by omega, by omega, f4⟩

/-! ### When the grids exist and contain the start -/

theorem arange_mem {a b s : ℝ} (hs : s ≠ 0) {m : ℕ} (h : (m : ℝ) < (b - a) / s) :
    ∃ l, arange a b s = .ok l ∧ a + m * s ∈ l := by
  refine ⟨(List.range ⌈(b - a) / s⌉₊).map (fun k : ℕ => a + k * s), by unfold arange; rw [if_neg hs], ?_⟩
  exact List.mem_map.2 ⟨m, List.mem_range.2 (Nat.lt_ceil.2 h), rfl⟩

/-- C54. A nonzero width, a whole number of steps and a `1/n` step dividing 0.25 give grids that contain the
start (the defaults 50, 10 and 0.025 do). -/
theorem c54_grids {bkf pm desXn : ℝ} {num m : ℕ} (hb : bkf ≠ 0) (hp : pm ≠ 0) (hn : 1 ≤ num)
    (hm : desXn * m = 0.25) (hd : 0 < desXn) :
    ∃ ks xs, smartGrids bkf pm num desXn = .ok (ks, xs) ∧ roundN 6 bkf ∈ ks ∧ roundN 3 0.45 ∈ xs := by
  have hn' : (num : ℝ) ≠ 0 := by positivity
  have hs : bkf * pm / 100 / num ≠ 0 := by positivity
  obtain ⟨ks, hk1, hk2⟩ := arange_mem (a := bkf * (1 - pm / 100))
    (b := bkf * (1 + pm / 100) + bkf * pm / 100 / num / 2) hs (m := num) (by
      have : (bkf * (1 + pm / 100) + bkf * pm / 100 / num / 2 - bkf * (1 - pm / 100)) / (bkf * pm / 100 / num) =
          2 * num + 1 / 2 := by
        field_simp
        ring
      rw [this]
      have : (0 : ℝ) ≤ num := Nat.cast_nonneg _
      linarith)
  obtain ⟨xs, hx1, hx2⟩ := arange_mem (a := 0.2) (b := 1 + desXn / 2) hd.ne' (m := m) (by
      rw [lt_div_iff₀ hd, mul_comm, hm]
      norm_num
      linarith)
  refine ⟨ks.map (roundN 6), xs.map (roundN 3), ?_, ?_, ?_⟩
  · unfold smartGrids
    simp only [hk1, hx1]
    rfl
  · refine List.mem_map.2 ⟨_, hk2, ?_⟩
    congr 1
    field_simp
    ring
  · refine List.mem_map.2 ⟨_, hx2, ?_⟩
    congr 1
    rw [mul_comm, hm]
    norm_num

example : ∃ m : ℕ, (0.025 : ℝ) * m = 0.25 := ⟨10, by norm_num⟩

/-- C54, limits: a zero width raises before any trial. -/
theorem c54_zero_width {S : Sim} {c : String} {o : GacObj} {bkf num desXn limit : ℝ} :
    smartCompound S c bkf 0 num desXn limit o = .error .zeroDivision := by
  unfold smartCompound smartGrids arange
  simp [bind, Except.bind]

theorem roundN_of_int {d : ℕ} {x : ℝ} {n : ℤ} (h : x * 10 ^ d = n) : roundN d x = x := by
  unfold roundN
  simp only
  rw [h, Int.floor_intCast, sub_self, if_pos (by norm_num), ← h]
  field_simp

/-- C54, limits: a step of 0.1, whose grid does not contain the starting 0.45, raises before any trial. -/
theorem c54_coarse_step {S : Sim} {c : String} {o : GacObj} {bkf pm num limit : ℝ}
    (hs : bkf * pm / 100 / num ≠ 0) :
    smartCompound S c bkf pm num 0.1 limit o = .error .keyError := by
  classical
  have h45 : roundN 3 0.45 = 0.45 := roundN_of_int (n := 450) (by norm_num)
  have hg : smartGrids bkf pm num 0.1 = .ok
      (((List.range ⌈(bkf * (1 + pm / 100) + bkf * pm / 100 / num / 2 - bkf * (1 - pm / 100)) /
        (bkf * pm / 100 / num)⌉₊).map
        (fun k : ℕ => bkf * (1 - pm / 100) + k * (bkf * pm / 100 / num))).map (roundN 6),
       ((List.range ⌈((1 : ℝ) + 0.1 / 2 - 0.2) / 0.1⌉₊).map (fun k : ℕ => (0.2 : ℝ) + k * 0.1)).map (roundN 3)) := by
    unfold smartGrids arange
    simp only [if_neg hs]
    rw [if_neg (by norm_num)]
    rfl
  unfold smartCompound
  rw [hg]
  simp only [bind, Except.bind]
  have hx : ((((List.range ⌈((1 : ℝ) + 0.1 / 2 - 0.2) / 0.1⌉₊).map (fun k : ℕ => (0.2 : ℝ) + k * 0.1)).map
      (roundN 3)).findIdx? (fun x => @decide (x = roundN 3 0.45) (Classical.propDecidable _))) = none := by
    rw [List.findIdx?_eq_none_iff]
    intro x hx
    obtain ⟨y, hy, rfl⟩ := List.mem_map.1 hx
    obtain ⟨k, -, rfl⟩ := List.mem_map.1 hy
    rw [decide_eq_false_iff_not, h45, roundN_of_int (n := 200 + k * 100) (by push_cast; ring)]
    intro he
    have : (2 * (k : ℝ)) = 5 := by linarith
    have : 2 * k = 5 := by exact_mod_cast this
    omega
  rw [hx]
  split
  · rename_i h; cases h
  · rfl

/-! ### C53: all compounds -/

/-- The simulation of the compounds present does not read the isotherm constants of other compounds. -/
def Spec.Local (S : Sim) : Prop :=
  ∀ (a : Core) (t : KTab) (d : Derived), (∀ c ∈ a.compounds, a.kData c = t c) →
    (S a d).1 = (S { a with kData := t } d).1

theorem fitError_congr {S : Sim} (hS : Spec.Local S) {o o' : GacObj} {c : String}
    (h1 : o'.core.geom = o.core.geom) (h2 : o'.core.mt = o.core.mt) (h3 : o'.bup.data = o.bup.data)
    (h4 : o'.der = o.der) (h5 : o'.core.kData c = o.core.kData c) (K x : ℝ) :
    Spec.fitError S o' c K x = Spec.fitError S o c K x := by
  have e : Spec.trialCurve S o' c K x = Spec.trialCurve S o c K x := by
    unfold Spec.trialCurve
    rw [h1, h2, h3, h4, h5]
    refine (hS _ (fun c' => if c' = c then
      ⟨K, x, (o.core.kData c).q, (o.core.kData c).brk, (o.core.kData c).aveC⟩ else o.core.kData c') _ ?_)
    intro d hd
    rw [List.mem_singleton.1 hd]
    simp only [if_true]
  unfold Spec.fitError
  rw [h3, h5, e]

theorem smartCompound_ok {S : Sim} {c : String} {o0 : GacObj} {bkf pm num desXn limit : ℝ} {l : LoopSt}
    (hr : Spec.Ready o0) (hl : o0.kInputList = false) (ho : o0.optimize = false)
    (h : smartCompound S c bkf pm num desXn limit o0 = .ok l) :
    ∃ nk nx, Spec.Finished S c o0 nk nx l.srch := by
  classical
  cases hg : smartGrids bkf pm num desXn with
  | error e =>
    unfold smartCompound at h
    rw [hg] at h
    cases h
  | ok g =>
    obtain ⟨ks, xs⟩ := g
    by_cases hk : roundN 6 bkf ∈ ks
    · by_cases hx : roundN 3 0.45 ∈ xs
      · obtain ⟨l', h1, -, -, h2⟩ := c54_search (S := S) (c := c) (limit := limit) hr hl ho hg hk hx
        rw [h] at h1
        cases h1
        exact ⟨_, _, h2⟩
      · exfalso
        unfold smartCompound at h
        rw [hg] at h
        simp only [bind, Except.bind] at h
        have hn : xs.findIdx? (fun x => @decide (x = roundN 3 0.45) (Classical.propDecidable _)) = none := by
          rw [List.findIdx?_eq_none_iff]
          intro x hx'
          rw [decide_eq_false_iff_not]
          rintro rfl
          exact hx hx'
        rw [hn] at h
        split at h
        · rename_i h'; cases h'
        · cases h
    · exfalso
      unfold smartCompound at h
      rw [hg] at h
      simp only [bind, Except.bind] at h
      have hn : ks.findIdx? (fun x => @decide (x = roundN 6 bkf) (Classical.propDecidable _)) = none := by
        rw [List.findIdx?_eq_none_iff]
        intro x hx'
        rw [decide_eq_false_iff_not]
        rintro rfl
        exact hk hx'
      rw [hn] at h
      split at h
      · rename_i h' _; cases h'
      · cases h

/-- What the record of a compound's search says about the final table. -/
structure Spec.Fitted (S : Sim) (o : GacObj) (t : KTab) (c : String) (s : Srch) : Prop where
  best : (s.bestK, s.bestXn, s.bestSsq) ∈ s.trials ∧ ∀ p ∈ s.trials, s.bestSsq ≤ p.2.2
  errs : ∀ p ∈ s.trials, p.2.2 = Spec.fitError S o c p.1 p.2.1
  k : (t c).K = s.bestK ∨ (s.bestK ≤ 0 ∧ (t c).K = 1e-6)
  xn : (t c).xn = s.bestXn

/-- State between compounds. -/
structure Between (S : Sim) (o : GacObj) (todo : List String) (p : GacObj) (log : List (String × Srch)) :
    Prop where
  ready : Spec.Ready p
  bup : p.bup = { o.bup with kData := p.core.kData }
  flags : p.kInputList = false ∧ p.optimize = false
  rest : p.dw = o.dw ∧ p.vw = o.vw ∧ p.testRange = o.testRange ∧ p.xnRange = o.xnRange ∧
    p.xnDefault = o.xnDefault ∧ p.kByXn = o.kByXn
  same : ∀ c, c ∉ log.map Prod.fst → p.core.kData c = o.core.kData c
  fitted : ∀ q ∈ log, Spec.Fitted S o p.core.kData q.1 q.2

theorem smartAll_between {S : Sim} (hS : Spec.Local S) {bkf : GacObj → String → ℝ}
    {pm num desXn limit : ℝ} {o : GacObj} (hc : Spec.Clean o) :
    ∀ (todo : List String) (p p' : GacObj) (log log' : List (String × Srch)),
      Between S o todo p log → (log.map Prod.fst ++ todo).Nodup →
      smartAll S bkf pm num desXn limit todo p log = .ok (p', log') →
      Between S o [] p' log' ∧ log'.map Prod.fst = log.map Prod.fst ++ todo
  | [], p, p', log, log', hb, hn, h => by
    simp only [smartAll, Except.ok.injEq, Prod.mk.injEq] at h
    obtain ⟨rfl, rfl⟩ := h
    exact ⟨⟨hb.ready, hb.bup, hb.flags, hb.rest, hb.same, hb.fitted⟩, by simp⟩
  | c :: rest, p, p', log, log', hb, hn, h => by
    unfold smartAll at h
    cases hs : smartCompound S c (bkf p c) pm num desXn limit p with
    | error e => rw [hs] at h; cases h
    | ok l =>
      rw [hs] at h
      simp only [bind, Except.bind] at h
      obtain ⟨nk, nx, f⟩ := smartCompound_ok hb.ready hb.flags.1 hb.flags.2 hs
      have d := f.done
      obtain ⟨w1, w2, w3, w4, w5, w6, w7, w8⟩ := d.rest
      obtain ⟨v1, v2, v3, v4, v5, v6⟩ := hb.rest
      have hcl : c ∉ log.map Prod.fst := by
        intro hmem
        exact (List.nodup_append.1 hn).2.2 c hmem c List.mem_cons_self rfl
      have hpc : p.core.kData c = o.core.kData c := hb.same c hcl
      have herr : ∀ K x, Spec.fitError S p c K x = Spec.fitError S o c K x := by
        obtain ⟨q1, q2, q3, q4⟩ := hb.ready
        obtain ⟨c1, c2⟩ := hc
        refine fitError_congr hS ?_ ?_ ?_ ?_ hpc
        · rw [q1, hb.bup, c1]
        · rw [q2, hb.bup, c1]
        · rw [hb.bup]
        · rw [q4, c2, v1, v2, hb.bup, c1]
      have hnew : Between S o rest l.srch.obj (log ++ [(c, l.srch)]) := by
        refine ⟨d.ready, by rw [d.bup, hb.bup], ⟨w1.trans hb.flags.1, w2.trans hb.flags.2⟩,
          ⟨w3.trans v1, w4.trans v2, w5.trans v3, w6.trans v4, w7.trans v5, w8.trans v6⟩,
          fun c' hc' => ?_, fun q hq => ?_⟩
        · rw [List.map_append, List.mem_append, not_or] at hc'
          have hne : c' ≠ c := fun e => hc'.2 (by simp [e])
          rw [d.others c' hne, hb.same c' hc'.1]
        · rcases List.mem_append.1 hq with hq | hq
          · have hne : q.1 ≠ c := fun e => hcl (e ▸ List.mem_map_of_mem hq)
            obtain ⟨x1, x2, x3, x4⟩ := hb.fitted q hq
            exact ⟨x1, x2, by rw [d.others q.1 hne]; exact x3, by rw [d.others q.1 hne]; exact x4⟩
          · rw [List.mem_singleton.1 hq]
            exact ⟨f.best, fun t ht => by rw [f.errs t ht, herr], d.k, d.xn⟩
      obtain ⟨r1, r2⟩ := smartAll_between hS hc rest l.srch.obj p' (log ++ [(c, l.srch)]) log' hnew
        (by simpa using hn) h
      exact ⟨r1, by rw [r2]; simp⟩

/-- C53 for `run_all_smart`: afterwards the stored constants of every compound are those of the trial with
the smallest error among all its trials, each error being that of the compound simulated alone in the
original column; the rest of the table, the column, data, compound list and shapes are as before. -/
theorem c53_smart {S : Sim} (hS : Spec.Local S) {bkf : GacObj → String → ℝ} {pm num desXn limit : ℝ}
    {o o' : GacObj} {log : List (String × Srch)} (hc : Spec.Clean o) (hn : o.core.compounds.Nodup)
    (h : runAllSmart S bkf pm num desXn limit o = .ok (o', log)) :
    log.map Prod.fst = o.core.compounds ∧
    (∀ q ∈ log, Spec.Fitted S o o'.core.kData q.1 q.2) ∧
    (∀ c, c ∉ o.core.compounds → o'.core.kData c = o.core.kData c) ∧
    o'.core = { o.core with kData := o'.core.kData } ∧ Spec.Clean o' ∧
    o'.testRange = o.testRange ∧ o'.kInputList = o.kInputList ∧ o'.kByXn = o.kByXn := by
  unfold runAllSmart at h
  cases hs : smartAll S bkf pm num desXn limit o.core.compounds
      { o with kInputList := false, optimize := false } [] with
  | error e => rw [hs] at h; cases h
  | ok r =>
    obtain ⟨p, lg⟩ := r
    rw [hs] at h
    simp only [bind, Except.bind, pure, Except.pure, Except.ok.injEq, Prod.mk.injEq] at h
    obtain ⟨h, rfl⟩ := h
    have h0 : Between S o o.core.compounds { o with kInputList := false, optimize := false } [] := by
      refine ⟨Clean.ready hc, ?_, ⟨rfl, rfl⟩, ⟨rfl, rfl, rfl, rfl, rfl, rfl⟩, fun _ _ => rfl,
        fun q hq => (by cases hq)⟩
      show o.bup = { o.bup with kData := o.core.kData }
      rw [hc.1]
    obtain ⟨b, e⟩ := smartAll_between hS hc _ _ p [] lg h0 (by simpa using hn) hs
    have hcore : o'.core = p.bup := by rw [← h]; rfl
    have hkd : o'.core.kData = p.core.kData := by rw [hcore, b.bup]
    rw [List.map_nil, List.nil_append] at e
    refine ⟨e, fun q hq => by rw [hkd]; exact b.fitted q hq,
      fun c hcc => by rw [hkd]; exact b.same c (by rw [e]; exact hcc), ?_, ?_, ?_, ?_, ?_⟩
    · rw [hkd, hcore, b.bup, hc.1]
    · rw [← h]; exact ⟨rfl, rfl⟩
    · rw [← h]; rfl
    · rw [← h]; rfl
    · rw [← h]; exact b.rest.2.2.2.2.2

/-- C53: with the grids of `c54_grids` it returns. -/
theorem c53_smart_returns {S : Sim} {bkf : GacObj → String → ℝ} {pm desXn limit : ℝ} {num m : ℕ}
    {o : GacObj} (hc : Spec.Clean o) (hb : ∀ p c, bkf p c ≠ 0) (hp : pm ≠ 0) (hnum : 1 ≤ num)
    (hm : desXn * m = 0.25) (hd : 0 < desXn) :
    ∃ o' log, runAllSmart S bkf pm num desXn limit o = .ok (o', log) := by
  have key : ∀ (todo : List String) (p : GacObj) (log : List (String × Srch)), Spec.Ready p →
      p.kInputList = false → p.optimize = false →
      ∃ r, smartAll S bkf pm num desXn limit todo p log = .ok r := by
    intro todo
    induction todo with
    | nil => intro p log _ _ _; exact ⟨_, rfl⟩
    | cons c rest ih =>
      intro p log hr hl ho
      obtain ⟨ks, xs, g1, g2, g3⟩ := c54_grids (hb p c) hp hnum hm hd
      obtain ⟨l, h1, -, -, h2⟩ := c54_search (S := S) (c := c) (limit := limit) hr hl ho g1 g2 g3
      obtain ⟨w1, w2, -⟩ := h2.done.rest
      unfold smartAll
      rw [h1]
      simp only [bind, Except.bind]
      exact ih _ _ h2.done.ready (w1.trans hl) (w2.trans ho)
  obtain ⟨r, hr⟩ := key o.core.compounds { o with kInputList := false, optimize := false } []
    (Clean.ready hc) rfl rfl
  refine ⟨resetColumn { r.1 with
    testRange := o.testRange, xnRange := o.xnRange.map (roundN 5), kInputList := o.kInputList }, r.2, ?_⟩
  unfold runAllSmart
  rw [hr]
  rfl

/-- C53, limit: `run_all_smart` leaves the optimise flag off whatever it was, and the `1/n` values rounded. -/
theorem c53_smart_flag {S : Sim} (hS : Spec.Local S) {bkf : GacObj → String → ℝ} {pm num desXn limit : ℝ}
    {o o' : GacObj} {log : List (String × Srch)} (hc : Spec.Clean o) (hn : o.core.compounds.Nodup)
    (h : runAllSmart S bkf pm num desXn limit o = .ok (o', log)) :
    o'.optimize = false ∧ o'.xnRange = o.xnRange.map (roundN 5) := by
  unfold runAllSmart at h
  cases hs : smartAll S bkf pm num desXn limit o.core.compounds
      { o with kInputList := false, optimize := false } [] with
  | error e => rw [hs] at h; cases h
  | ok r =>
    obtain ⟨p, lg⟩ := r
    rw [hs] at h
    simp only [bind, Except.bind, pure, Except.pure, Except.ok.injEq, Prod.mk.injEq] at h
    have h0 : Between S o o.core.compounds { o with kInputList := false, optimize := false } [] := by
      refine ⟨Clean.ready hc, ?_, ⟨rfl, rfl⟩, ⟨rfl, rfl, rfl, rfl, rfl, rfl⟩, fun _ _ => rfl,
        fun q hq => (by cases hq)⟩
      show o.bup = { o.bup with kData := o.core.kData }
      rw [hc.1]
    obtain ⟨b, -⟩ := smartAll_between hS hc _ _ p [] lg h0 (by simpa using hn) hs
    rw [← h.1]
    exact ⟨b.flags.2, rfl⟩

end WTM
