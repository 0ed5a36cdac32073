import Mathlib.Tactic
import Verif.Model.ShinyFit
import Verif.Props.GacRunAll

/-! C183-C185: the grids of `run_all`. -/
set_option autoImplicit false
namespace WTM

/-! ### C183: errors of the grid -/

/-- The object between two runs: column, transfer coefficients, data and the isotherm of `c` are those of `o0`. -/
structure Spec.Like (o0 : GacObj) (c : String) (o : GacObj) : Prop where
  geom : o.core.geom = o0.core.geom
  mt : o.core.mt = o0.core.mt
  iso : o.core.kData c = o0.core.kData c
  bup : o.bup = o0.bup
  der : o.der = o0.der
  dw : o.dw = o0.dw
  vw : o.vw = o0.vw

theorem Spec.Like.refl (o : GacObj) (c : String) : Spec.Like o c o := ⟨rfl, rfl, rfl, rfl, rfl, rfl, rfl⟩

theorem isTrialError_congr {S : Sim} (hS : Spec.Local S) {o0 o : GacObj} {c : String} {tab : List (ℝ × ℝ)} {K x e : ℝ}
    (hg : o.core.geom = o0.core.geom) (hmt : o.core.mt = o0.core.mt) (hb : o.bup = o0.bup) (hd : o.der = o0.der)
    (hk : (o.core.kData c).q = (o0.core.kData c).q ∧ (o.core.kData c).brk = (o0.core.kData c).brk ∧
      (o.core.kData c).aveC = (o0.core.kData c).aveC)
    (h : Spec.IsTrialError S o c tab K x e) : Spec.IsTrialError S o0 c tab K x e := by
  obtain ⟨res, h1, h2⟩ := h
  refine ⟨res, ?_, by rw [h2, hk.2.1]⟩
  rw [← h1]
  unfold Spec.trialCurve
  rw [hg, hmt, hb, hd, hk.1, hk.2.1, hk.2.2]
  refine hS _ (fun c' => if c' = c then
    ⟨K, x, (o0.core.kData c).q, (o0.core.kData c).brk, (o0.core.kData c).aveC⟩ else o.core.kData c') _ ?_
  intro d hd
  rw [List.mem_singleton.1 hd]
  simp only [if_true]

/-- Rows of a table of errors that belong to their own constants. -/
def Spec.RightRows (S : Sim) (o : GacObj) (c : String) (tab : List (ℝ × ℝ)) (km : ℝ → ℝ) (l : List (ℝ × ℝ)) (rows : List (ℝ × ℝ × ℝ)) :
    Prop :=
  rows.map (fun r => (r.1, r.2.1)) = l ∧ ∀ r ∈ rows, Spec.IsTrialError S o c tab (r.1 * km r.2.1) r.2.1 r.2.2

/-- C183. The table of errors of a grid has a row for each pair of multiplier and 1/n, and its error is that of the compound alone in
the column with these constants. -/
def C183 : Prop := ∀ (S : Sim), Spec.Local S → ∀ (o o' : GacObj) (c : String) (tab : List (ℝ × ℝ)) (km : ℝ → ℝ) (l : List (ℝ × ℝ))
  (rows : List (ℝ × ℝ × ℝ)), Spec.Clean o → o.bup.data.eff c = some tab → raTrials S c km l o [] = (.ok rows, o') →
  Spec.RightRows S o c tab km l rows

theorem raTrial_like {S : Sim} (hS : Spec.Local S) {o0 o o' : GacObj} {c : String} {tab : List (ℝ × ℝ)} {km : ℝ → ℝ} {k xn : ℝ}
    {row : ℝ × ℝ × ℝ} (h0 : Spec.Clean o0) (hl : Spec.Like o0 c o) (ht : o0.bup.data.eff c = some tab) (hk : o.kInputList = false)
    (h : raTrial S c km k xn o = (.ok row, o')) :
    row.1 = k ∧ row.2.1 = xn ∧ Spec.IsTrialError S o0 c tab (k * km xn) xn row.2.2 ∧ Spec.Like o0 c o' ∧ o'.kInputList = false ∧
      o'.core = o0.bup := by
  obtain ⟨a1, a2, a3, -, a5, a6⟩ := raTrial_ok h
  rw [if_neg (by rw [hk]; decide)] at a6
  unfold raTrial at h
  simp only [Prod.mk.injEq] at h
  obtain ⟨h1, h2⟩ := h
  set p : GacObj := { o with
    testRange := [k * km xn], xnRange := [xn]
    core := { o.core with kData := o.core.kData.set c (k * km xn) xn } } with hp
  obtain ⟨⟨r1, r2, r3, -⟩, -, g3, -⟩ := runKfit_ok S p c
  cases hr : (runKfit S p c).1 with
  | error e => rw [hr] at h1; cases h1
  | ok out =>
    rw [hr] at h1
    simp only [Except.map, Except.ok.injEq] at h1
    have hrun : runKfit S p c = (.ok out, o') := Prod.ext hr h2
    obtain ⟨g4, g5⟩ := g3 ⟨out, hr⟩
    rw [h2] at r1 r2 r3 g4 g5
    have hpc : p.core.kData c = { o.core.kData c with K := k * km xn, xn := xn } := if_pos rfl
    have e := hl.bup
    refine ⟨a5, a6, ?_, ⟨?_, ?_, ?_, a2.trans e, ?_, ?_, ?_⟩, a3.trans hk, a1.trans e⟩
    · rcases c83_kfit hrun (tab := tab) (by rw [← ht, ← e]) with h | h | h
      · exact absurd (show oneTrial p from ⟨rfl, rfl⟩) h.2.1
      · exact absurd h.1 (by rw [show p.kInputList = o.kInputList from rfl, hk]; decide)
      · obtain ⟨-, e, h5, -, -, h6⟩ := h
        rw [← h1]
        simp only [h5, List.headD_cons]
        rw [hpc] at h6
        exact isTrialError_congr (o := p) hS hl.geom hl.mt hl.bup hl.der (by rw [hpc, hl.iso]; exact ⟨rfl, rfl, rfl⟩) h6
    · rw [a1, e, h0.1]
    · rw [a1, e, h0.1]
    · rw [a1, e, h0.1]
    · rw [g5, h0.2, h0.1]
      show derive o.dw o.vw o.bup.geom = _
      rw [hl.dw, hl.vw, e]
    · rw [r2]; exact hl.dw
    · rw [r3]; exact hl.vw

theorem raTrials_like {S : Sim} (hS : Spec.Local S) {o0 : GacObj} {c : String} {tab : List (ℝ × ℝ)} {km : ℝ → ℝ} (h0 : Spec.Clean o0)
    (ht : o0.bup.data.eff c = some tab) : ∀ (l : List (ℝ × ℝ)) (o o' : GacObj) (acc rows : List (ℝ × ℝ × ℝ)), Spec.Like o0 c o →
      o.kInputList = false → raTrials S c km l o acc = (.ok rows, o') →
      (∃ new, rows = acc ++ new ∧ Spec.RightRows S o0 c tab km l new) ∧ Spec.Like o0 c o' ∧ o'.kInputList = false
  | [], o, o', acc, rows, hl, hk, h => by
    simp only [raTrials, Prod.mk.injEq, Except.ok.injEq] at h
    obtain ⟨rfl, rfl⟩ := h
    exact ⟨⟨[], by simp, rfl, fun r hr => by cases hr⟩, hl, hk⟩
  | (k, xn) :: rest, o, o', acc, rows, hl, hk, h => by
    simp only [raTrials] at h
    split at h
    · simp at h
    · rename_i row o1 h1
      obtain ⟨b1, b2, b3, b4, b5, -⟩ := raTrial_like hS h0 hl ht hk h1
      obtain ⟨⟨new, c1, c2, c3⟩, c4, c5⟩ := raTrials_like hS h0 ht rest o1 o' _ rows b4 b5 h
      refine ⟨⟨row :: new, by rw [c1]; simp, by rw [List.map_cons, c2, b1, b2], fun r hr => ?_⟩, c4, c5⟩
      rcases List.mem_cons.1 hr with rfl | hr
      · rw [b1, b2]; exact b3
      · exact c3 r hr

/-- C183, as far as it holds: isotherms are not from a list. Missing: with isotherms from a list each row says 1/n = 1 (C53). -/
theorem c183_partial {S : Sim} (hS : Spec.Local S) {o o' : GacObj} {c : String} {tab : List (ℝ × ℝ)} {km : ℝ → ℝ} {l : List (ℝ × ℝ)}
    {rows : List (ℝ × ℝ × ℝ)} (hc : Spec.Clean o) (ht : o.bup.data.eff c = some tab) (hk : o.kInputList = false)
    (h : raTrials S c km l o [] = (.ok rows, o')) : Spec.RightRows S o c tab km l rows := by
  obtain ⟨⟨new, e, hn⟩, -⟩ := raTrials_like hS hc ht l o o' [] rows (Spec.Like.refl o c) hk h
  rw [e, List.nil_append]
  exact hn

/-- The constants chosen for `c`: a pair found in a table of errors of its own, all of whose rows are right. -/
def Spec.Chosen (S : Sim) (findMin : List (ℝ × ℝ × ℝ) → Except PyErr (ℝ × ℝ)) (o : GacObj) (c : String) (best : ℝ × ℝ) : Prop :=
  ∃ l rows m, (∀ tab, o.bup.data.eff c = some tab → Spec.RightRows S o c tab
      (fun x => recalcK (o.core.kData c).K (o.core.kData c).q o.xnDefault x) l rows) ∧
    findMin rows = .ok m ∧ best = (m.1 * recalcK (o.core.kData c).K (o.core.kData c).q o.xnDefault m.2, m.2)

theorem raTrials_seen {S : Sim} {c : String} {km : ℝ → ℝ} {k xn : ℝ} {rest : List (ℝ × ℝ)} {o o' : GacObj} {acc rows : List (ℝ × ℝ × ℝ)}
    (h : raTrials S c km ((k, xn) :: rest) o acc = (.ok rows, o')) : o.bup.data.eff c ≠ none := by
  intro hn
  have : raTrial S c km k xn o = (.error .keyError, (raTrial S c km k xn o).2) := by
    refine Prod.ext ?_ rfl
    unfold raTrial runKfit
    rw [toSingle_eff]
    simp only [hn]
    rfl
  simp only [raTrials] at h
  rw [this] at h
  simp at h

theorem raLoops_like {S : Sim} (hS : Spec.Local S) {findMin : List (ℝ × ℝ × ℝ) → Except PyErr (ℝ × ℝ)} {brute : Bool}
    {xnFix kFix : List ℝ} {n : ℕ} {c : String} {km : ℝ → ℝ} {o0 : GacObj} (h0 : Spec.Clean o0) {tab : List (ℝ × ℝ)}
    (ht : o0.bup.data.eff c = some tab) :
    ∀ (loops : List ℕ) (st st' : Stage) (b m : ℝ × ℝ) (o o' : GacObj), Spec.Like o0 c o → o.kInputList = false →
      raLoops S findMin brute xnFix kFix n c km loops st b o = (.ok (m, st'), o') →
      (loops ≠ [] → ∃ l rows, Spec.RightRows S o0 c tab km l rows ∧ findMin rows = .ok m) ∧ Spec.Like o0 c o' ∧ o'.kInputList = false
  | [], st, st', b, m, o, o', hl, hk, h => by
    simp only [raLoops, Prod.mk.injEq, Except.ok.injEq] at h
    obtain ⟨-, rfl⟩ := h
    exact ⟨fun h => absurd rfl h, hl, hk⟩
  | loop :: rest, st, st', b, m, o, o', hl, hk, h => by
    simp only [raLoops] at h
    split at h
    · simp at h
    · rename_i rows o1 h1
      split at h
      · simp at h
      · rename_i m1 st1 h2
        obtain ⟨-, -, l3, -, -⟩ := raRefine_ok h2
        obtain ⟨⟨new, e, hn⟩, t2, t3⟩ := raTrials_like hS h0 ht _ _ _ _ _ hl hk h1
        obtain ⟨r1, r2, r3⟩ := raLoops_like hS h0 ht rest st1 st' m1 m o1 o' t2 t3 h
        refine ⟨fun _ => ?_, r2, r3⟩
        by_cases hrest : rest = []
        · subst hrest
          simp only [raLoops, Prod.mk.injEq, Except.ok.injEq] at h
          obtain ⟨⟨rfl, -⟩, -⟩ := h
          exact ⟨_, rows, by rw [e, List.nil_append]; exact hn, l3⟩
        · exact r1 hrest

theorem raLoops_default {S : Sim} {findMin : List (ℝ × ℝ × ℝ) → Except PyErr (ℝ × ℝ)} {brute : Bool} {xnFix kFix : List ℝ} {n : ℕ}
    {c : String} {km : ℝ → ℝ} : ∀ (loops : List ℕ) (st st' : Stage) (b m : ℝ × ℝ) (o o' : GacObj),
      raLoops S findMin brute xnFix kFix n c km loops st b o = (.ok (m, st'), o') → o'.xnDefault = o.xnDefault ∧
        (loops ≠ [] → o.bup.data.eff c ≠ none)
  | [], st, st', b, m, o, o', h => by
    simp only [raLoops, Prod.mk.injEq, Except.ok.injEq] at h
    obtain ⟨-, rfl⟩ := h
    exact ⟨rfl, fun h => absurd rfl h⟩
  | loop :: rest, st, st', b, m, o, o', h => by
    have key : ∀ (l : List (ℝ × ℝ)) (o o' : GacObj) (acc rows : List (ℝ × ℝ × ℝ)), raTrials S c km l o acc = (.ok rows, o') →
        o'.xnDefault = o.xnDefault := by
      intro l
      induction l with
      | nil =>
        intro o o' acc rows h
        simp only [raTrials, Prod.mk.injEq] at h
        rw [← h.2]
      | cons a l ih =>
        intro o o' acc rows h
        obtain ⟨k, xn⟩ := a
        simp only [raTrials] at h
        split at h
        · simp at h
        · rename_i row o1 h1
          rw [ih o1 o' _ _ h, (raTrial_ok h1).2.2.2.1]
    simp only [raLoops] at h
    split at h
    · simp at h
    · rename_i rows o1 h1
      split at h
      · simp at h
      · rename_i m1 st1 h2
        obtain ⟨-, -, -, l4, l5⟩ := raRefine_ok h2
        obtain ⟨e1, -⟩ := raLoops_default rest st1 st' m1 m o1 o' h
        refine ⟨e1.trans (key _ _ _ _ _ h1), fun _ => ?_⟩
        cases hg : ((raGrid brute xnFix kFix loop n st).1.2.flatMap fun k =>
            (raGrid brute xnFix kFix loop n st).1.1.map fun x => (k, x)) with
        | nil =>
          rw [List.flatMap_eq_nil_iff] at hg
          have := hg m1.1 l5
          rw [List.map_eq_nil_iff] at this
          rw [this] at l4
          cases l4
        | cons a l =>
          obtain ⟨k, xn⟩ := a
          rw [hg] at h1
          exact raTrials_seen h1

theorem raCompound_like {S : Sim} (hS : Spec.Local S) {findMin : List (ℝ × ℝ × ℝ) → Except PyErr (ℝ × ℝ)} {brute : Bool}
    {xnFix kFix : List ℝ} {g n : ℕ} {c : String} {tmp : (ℝ × ℝ) × (ℝ × ℝ)} {o0 o o' : GacObj} {best : ℝ × ℝ} {st : Stage}
    (h0 : Spec.Clean o0) (hl : Spec.Like o0 c o) (hk : o.kInputList = false) (hx : o.xnDefault = o0.xnDefault)
    (h : raCompound S findMin brute xnFix kFix g n c tmp o = (.ok (best, st), o')) :
    Spec.Chosen S findMin o0 c best ∧ (∀ d, d ≠ c → Spec.Like o0 d o') ∧ o'.kInputList = false ∧ o'.xnDefault = o0.xnDefault := by
  obtain ⟨a1, a2, a3, -⟩ := raCompound_ok h
  unfold raCompound at h
  simp only at h
  split at h
  · simp at h
  · rename_i m st1 o1 h1
    simp only [Prod.mk.injEq, Except.ok.injEq] at h
    obtain ⟨⟨h2, -⟩, h3⟩ := h
    obtain ⟨d1, d2⟩ := raLoops_default _ _ _ _ _ _ _ h1
    have hne : List.range ((if brute = true then 0 else n) + 1) ≠ [] := by simp
    obtain ⟨tab, ht⟩ := Option.ne_none_iff_exists'.1 (d2 hne)
    rw [hl.bup] at ht
    obtain ⟨e1, e2, e3⟩ := raLoops_like hS h0 ht _ _ _ _ _ _ _ hl hk h1
    obtain ⟨l, rows, hr, hf⟩ := e1 hne
    rw [hl.iso, hx] at hr h2
    refine ⟨⟨l, rows, m, fun tab' ht' => ?_, hf, h2.symm⟩, fun d hd => ?_, ?_, ?_⟩
    · obtain rfl : tab = tab' := Option.some.inj (ht.symm.trans ht')
      exact hr
    · rw [← h3]
      refine ⟨e2.geom, e2.mt, ?_, e2.bup, e2.der, e2.dw, e2.vw⟩
      have : o'.core.kData d = o0.core.kData d := by
        rw [a1]
        show (if d = c then _ else _ : KCol) = _
        rw [if_neg hd, hl.bup, h0.1]
      rw [← h3] at this
      exact this
    · rw [← h3]; exact e3
    · rw [← h3]; exact d1.trans hx

/-- C183. For each compound of `run_all` the constants chosen are those the search picked from a table of errors of that compound alone in
the column as it was at the start, brute or staged. -/
theorem c183_chosen {S : Sim} (hS : Spec.Local S) {findMin : List (ℝ × ℝ × ℝ) → Except PyErr (ℝ × ℝ)} {brute : Bool} {g n : ℕ}
    {o o' : GacObj} {log : List (String × (ℝ × ℝ))} (hc : Spec.Clean o) (hk : o.kInputList = false) (hn : o.core.compounds.Nodup)
    (h : runAll S findMin brute g n o = (.ok log, o')) :
    log.map Prod.fst = o.core.compounds ∧ ∀ q ∈ log, Spec.Chosen S findMin o q.1 q.2 := by
  have key : ∀ (l : List String) (tmp : (ℝ × ℝ) × (ℝ × ℝ)) (p p' : GacObj) (log log' : List (String × (ℝ × ℝ))), l.Nodup →
      (∀ d ∈ l, Spec.Like o d p) → p.kInputList = false → p.xnDefault = o.xnDefault → (∀ q ∈ log, Spec.Chosen S findMin o q.1 q.2) →
      raAll S findMin brute o.xnRange o.testRange g n l tmp p log = (.ok log', p') →
      ∀ q ∈ log', Spec.Chosen S findMin o q.1 q.2 := by
    intro l
    induction l with
    | nil =>
      intro tmp p p' log log' _ _ _ _ hlog h
      simp only [raAll, Prod.mk.injEq, Except.ok.injEq] at h
      rw [← h.1]
      exact hlog
    | cons c rest ih =>
      intro tmp p p' log log' hnd hl hkp hx hlog h
      simp only [raAll] at h
      split at h
      · simp at h
      · rename_i best st p1 h1
        rw [List.nodup_cons] at hnd
        obtain ⟨b1, b2, b3, b4⟩ := raCompound_like hS hc (hl c (List.mem_cons_self ..)) hkp hx h1
        refine ih _ p1 p' _ log' hnd.2 (fun d hd => b2 d fun e => hnd.1 (e ▸ hd)) b3 b4 (fun q hq => ?_) h
        rcases List.mem_append.1 hq with hq | hq
        · exact hlog q hq
        · rw [List.mem_singleton.1 hq]; exact b1
  unfold runAll at h
  split at h
  · simp at h
  · rename_i log1 o1 h1
    simp only [Prod.mk.injEq, Except.ok.injEq] at h
    obtain ⟨rfl, -⟩ := h
    refine ⟨by simpa using (raAll_ok _ _ _ _ _ _ h1).2.1, ?_⟩
    exact key _ _ { o with optimize := false } _ [] _ hn (fun d _ => ⟨rfl, rfl, rfl, rfl, rfl, rfl, rfl⟩) hk rfl (by simp) h1

/-- C183 is false: isotherms from a list, one trial with 1/n = 1/2. -/
theorem c183_false : ¬ C183 := by
  intro H
  obtain ⟨out, ho⟩ := runKfit_returns (S := demoSim) (fun _ _ => ⟨_, rfl⟩) (c := "A") (o := { demoObj true with
    testRange := [1 * (fun _ => (1 : ℝ)) (1 / 2)], xnRange := [1 / 2]
    core := { (demoObj true).core with kData := (demoObj true).core.kData.set "A" (1 * (fun _ => (1 : ℝ)) (1 / 2)) (1 / 2) } })
    (by intro h; cases h)
  have h1 : (raTrial demoSim "A" (fun _ => 1) 1 (1 / 2) (demoObj true)).1 =
      .ok (1, out.xn, (out.ssqs.headD (0, 0, 0)).2.2) := by
    unfold raTrial
    simp only
    rw [ho]
    rfl
  have h2 : raTrials demoSim "A" (fun _ => 1) [(1, 1 / 2)] (demoObj true) [] = (.ok [(1, out.xn, (out.ssqs.headD (0, 0, 0)).2.2)],
      (raTrial demoSim "A" (fun _ => 1) 1 (1 / 2) (demoObj true)).2) := by
    have : raTrial demoSim "A" (fun _ => 1) 1 (1 / 2) (demoObj true) = (.ok (1, out.xn, (out.ssqs.headD (0, 0, 0)).2.2),
      (raTrial demoSim "A" (fun _ => 1) 1 (1 / 2) (demoObj true)).2) := Prod.ext h1 rfl
    simp only [raTrials]
    rw [this]
    rfl
  obtain ⟨e, -⟩ := H demoSim (fun _ _ _ _ => rfl) (demoObj true) _ "A" [(0, 0), (10, 1)] (fun _ => 1) [(1, 1 / 2)] _ (demo_clean true) rfl h2
  have h3 := (raTrials_ok _ _ _ _ _ h2).2.2.2 rfl (fun r hr => by cases hr) _ (List.mem_singleton.2 rfl)
  simp only [List.map_cons, List.map_nil, List.cons.injEq, Prod.mk.injEq, and_true] at e h3
  rw [h3] at e
  norm_num at e

/-- The column `demoObj false` meets the hypotheses of `c183_partial` and a loop of four trials returns. -/
example : Spec.Clean (demoObj false) ∧ (demoObj false).bup.data.eff "A" = some [(0, 0), (10, 1)] ∧ (demoObj false).kInputList = false ∧
    ∃ rows o', raTrials demoSim "A" (fun _ => 1) [(1, 1 / 2), (1, 1), (2, 1 / 2), (2, 1)] (demoObj false) [] = (.ok rows, o') := by
  refine ⟨demo_clean false, rfl, rfl, ?_⟩
  obtain ⟨rows, o', h, -⟩ := raTrials_returns (S := demoSim) (fun _ _ => ⟨_, rfl⟩) (c := "A") (fun _ => 1)
    [(1, 1 / 2), (1, 1), (2, 1 / 2), (2, 1)] (demoObj false) [] (by intro h; cases h) rfl
  exact ⟨rows, o', h⟩

/-! ### C184: the copy in the web application -/

/-- C184. C183 for the copy of the carbon column that comes with the web application, isotherms not from a list. -/
def C184 : Prop := ∀ (S : Sim), Spec.Local S → ∀ (o o' : GacObj) (c : String) (tab : List (ℝ × ℝ)) (km : ℝ → ℝ) (l : List (ℝ × ℝ))
  (rows : List (ℝ × ℝ × ℝ)), Spec.Clean o → o.bup.data.eff c = some tab → o.kInputList = false →
  saTrials S c km l o [] = (.ok rows, o') → Spec.RightRows S o c tab km l rows

theorem saTrial_like {S : Sim} (hS : Spec.Local S) {o0 o o' : GacObj} {c : String} {tab : List (ℝ × ℝ)} {km : ℝ → ℝ} {k xn : ℝ}
    {row : ℝ × ℝ × ℝ} (h0 : Spec.Clean o0) (hl : Spec.Like o0 c o) (ht : o0.bup.data.eff c = some tab) (hk : o.kInputList = false)
    (h : saTrial S c km k xn o = (.ok row, o')) :
    row.1 = k ∧ row.2.1 = (o0.core.kData c).xn ∧ Spec.IsTrialError S o0 c tab (o0.core.kData c).K (o0.core.kData c).xn row.2.2 ∧
      Spec.Like o0 c o' ∧ o'.kInputList = false := by
  unfold saTrial at h
  simp only [Prod.mk.injEq] at h
  obtain ⟨h1, h2⟩ := h
  set p : GacObj := { o with testRange := [k * km xn], xnRange := [xn] } with hp
  obtain ⟨⟨r1, r2, r3, -, -, r8, -⟩, -, g3, -⟩ := runKfit_ok S p c
  cases hr : (runKfit S p c).1 with
  | error e => rw [hr] at h1; cases h1
  | ok out =>
    rw [hr] at h1
    simp only [Except.map, Except.ok.injEq] at h1
    have hrun : runKfit S p c = (.ok out, o') := Prod.ext hr h2
    obtain ⟨g4, g5⟩ := g3 ⟨out, hr⟩
    rw [h2] at r1 r2 r3 r8 g4 g5
    have e := hl.bup
    have a1 : o'.core = o.bup := g4
    rcases c83_kfit hrun (tab := tab) (by rw [← ht, ← e]) with h | h | h
    · exact absurd (show oneTrial p from ⟨rfl, rfl⟩) h.2.1
    · exact absurd h.1 (by rw [show p.kInputList = o.kInputList from rfl, hk]; decide)
    · obtain ⟨-, er, h5, -, h7, h6⟩ := h
      rw [show p.core = o.core from rfl, hl.iso] at h5 h6 h7
      refine ⟨by rw [← h1], by rw [← h1]; exact h7, ?_, ⟨?_, ?_, ?_, r1.trans e, ?_, ?_, ?_⟩, r8.trans hk⟩
      · rw [← h1]
        simp only [h5, List.headD_cons]
        exact isTrialError_congr (o := p) hS hl.geom hl.mt hl.bup hl.der
          (by rw [show p.core = o.core from rfl, hl.iso]; exact ⟨rfl, rfl, rfl⟩) h6
      · rw [a1, e, h0.1]
      · rw [a1, e, h0.1]
      · rw [a1, e, h0.1]
      · rw [g5, h0.2, h0.1]
        show derive o.dw o.vw o.bup.geom = _
        rw [hl.dw, hl.vw, e]
      · rw [r2]; exact hl.dw
      · rw [r3]; exact hl.vw

theorem saTrials_like {S : Sim} (hS : Spec.Local S) {o0 : GacObj} {c : String} {tab : List (ℝ × ℝ)} {km : ℝ → ℝ} (h0 : Spec.Clean o0)
    (ht : o0.bup.data.eff c = some tab) : ∀ (l : List (ℝ × ℝ)) (o o' : GacObj) (acc rows : List (ℝ × ℝ × ℝ)), Spec.Like o0 c o →
      o.kInputList = false → saTrials S c km l o acc = (.ok rows, o') →
      ∃ new, rows = acc ++ new ∧ new.map Prod.fst = l.map Prod.fst ∧ ∀ r ∈ new, r.2.1 = (o0.core.kData c).xn ∧
        Spec.IsTrialError S o0 c tab (o0.core.kData c).K (o0.core.kData c).xn r.2.2
  | [], o, o', acc, rows, hl, hk, h => by
    simp only [saTrials, Prod.mk.injEq, Except.ok.injEq] at h
    obtain ⟨rfl, rfl⟩ := h
    exact ⟨[], by simp, rfl, fun r hr => by cases hr⟩
  | (k, xn) :: rest, o, o', acc, rows, hl, hk, h => by
    simp only [saTrials] at h
    split at h
    · simp at h
    · rename_i row o1 h1
      obtain ⟨b1, b2, b3, b4, b5⟩ := saTrial_like hS h0 hl ht hk h1
      obtain ⟨new, c1, c2, c3⟩ := saTrials_like hS h0 ht rest o1 o' _ rows b4 b5 h
      refine ⟨row :: new, by rw [c1]; simp, by rw [List.map_cons, List.map_cons, c2, b1], fun r hr => ?_⟩
      rcases List.mem_cons.1 hr with rfl | hr
      · exact ⟨b2, b3⟩
      · exact c3 r hr

theorem isTrialError_unique {S : Sim} {o : GacObj} {c : String} {tab : List (ℝ × ℝ)} {K x e e' : ℝ} (h : Spec.IsTrialError S o c tab K x e)
    (h' : Spec.IsTrialError S o c tab K x e') : e = e' := by
  obtain ⟨r, h1, h2⟩ := h
  obtain ⟨r', h1', h2'⟩ := h'
  rw [h1] at h1'
  cases h1'
  rw [h2, h2']

/-- C184, what holds instead: all rows have the error and the 1/n of the table of isotherms, so the error does not depend on the trial.
Missing: the row of a pair has its 1/n and its error. -/
theorem c184_partial {S : Sim} (hS : Spec.Local S) {o o' : GacObj} {c : String} {tab : List (ℝ × ℝ)} {km : ℝ → ℝ} {l : List (ℝ × ℝ)}
    {rows : List (ℝ × ℝ × ℝ)} (hc : Spec.Clean o) (ht : o.bup.data.eff c = some tab) (hk : o.kInputList = false)
    (h : saTrials S c km l o [] = (.ok rows, o')) :
    ∃ e, rows = l.map (fun q => (q.1, (o.core.kData c).xn, e)) ∧
      (l ≠ [] → Spec.IsTrialError S o c tab (o.core.kData c).K (o.core.kData c).xn e) := by
  obtain ⟨new, hrows, h1, h2⟩ := saTrials_like hS hc ht l o o' [] rows (Spec.Like.refl o c) hk h
  rw [hrows, List.nil_append]
  have key : ∀ (e : ℝ) (l : List (ℝ × ℝ)) (rs : List (ℝ × ℝ × ℝ)), rs.map Prod.fst = l.map Prod.fst →
      (∀ r ∈ rs, r.2 = ((o.core.kData c).xn, e)) → rs = l.map (fun q => (q.1, (o.core.kData c).xn, e)) := by
    intro e l
    induction l with
    | nil => intro rs h _; simpa using h
    | cons a l ih =>
      intro rs h hr
      cases rs with
      | nil => cases h
      | cons r rs =>
        simp only [List.map_cons, List.cons.injEq] at h ⊢
        exact ⟨Prod.ext h.1 (hr r (List.mem_cons_self ..)), ih rs h.2 fun r' h' => hr r' (List.mem_cons_of_mem _ h')⟩
  cases hn : new with
  | nil =>
    rw [hn] at h1
    have : l = [] := by simpa using h1.symm
    exact ⟨0, by rw [this]; rfl, fun h => absurd this h⟩
  | cons r0 rs =>
    have hr0 := h2 r0 (by rw [hn]; exact List.mem_cons_self ..)
    refine ⟨r0.2.2, ?_, fun _ => hr0.2⟩
    rw [← hn]
    exact key _ _ _ h1 fun r hr => Prod.ext (h2 r hr).1 (isTrialError_unique (h2 r hr).2 hr0.2)

/-- C184. A loop of the copy fails unless the 1/n of the table of isotherms is itself a point of the grid. -/
theorem c184_grid {S : Sim} (hS : Spec.Local S) {findMin : List (ℝ × ℝ × ℝ) → Except PyErr (ℝ × ℝ)} (hp : Spec.Picks findMin)
    {o o' : GacObj} {c : String} {tab : List (ℝ × ℝ)} {km : ℝ → ℝ} {xr kr : List ℝ} {st : Stage} {out : (ℝ × ℝ) × Stage}
    (hc : Spec.Clean o) (ht : o.bup.data.eff c = some tab) (hk : o.kInputList = false)
    (h : saLoop S findMin xr kr c km st o = (.ok out, o')) : (o.core.kData c).xn ∈ xr ∧ out.1.2 = (o.core.kData c).xn := by
  unfold saLoop at h
  split at h
  · simp at h
  · rename_i rows o1 h1
    simp only [Prod.mk.injEq] at h
    obtain ⟨m, st'⟩ := out
    obtain ⟨-, -, l3, l4, -⟩ := raRefine_ok h.1
    obtain ⟨e, he, -⟩ := c184_partial hS hc ht hk h1
    obtain ⟨r, hr, -, hr2⟩ := hp _ _ l3
    rw [he] at hr
    obtain ⟨q, -, rfl⟩ := List.mem_map.1 hr
    exact ⟨by rw [show (o.core.kData c).xn = m.2 from hr2]; exact l4, hr2.symm⟩

theorem saTrials_one {k xn : ℝ} : ∃ rows o', saTrials demoSim "A" (fun _ => 1) [(k, xn)] (demoObj false) [] = (.ok rows, o') := by
  obtain ⟨out, ho⟩ := runKfit_returns (S := demoSim) (fun _ _ => ⟨_, rfl⟩) (c := "A") (o := { demoObj false with
    testRange := [k * (fun _ => (1 : ℝ)) xn], xnRange := [xn] }) (by intro h; cases h)
  have : saTrial demoSim "A" (fun _ => 1) k xn (demoObj false) = (.ok (k, out.xn, (out.ssqs.headD (0, 0, 0)).2.2),
      (saTrial demoSim "A" (fun _ => 1) k xn (demoObj false)).2) := by
    refine Prod.ext ?_ rfl
    unfold saTrial
    simp only
    rw [ho]
    rfl
  exact ⟨_, _, by simp only [saTrials]; rw [this]⟩

/-- C184 is false: one trial with a 1/n other than that of the table. -/
theorem c184_false : ¬ C184 := by
  intro H
  obtain ⟨rows, o', h⟩ := saTrials_one (k := 1) (xn := ((demoObj false).core.kData "A").xn + 1)
  obtain ⟨e, -⟩ := H demoSim (fun _ _ _ _ => rfl) (demoObj false) o' "A" _ _ _ rows (demo_clean false) rfl rfl h
  obtain ⟨er, hr, -⟩ := c184_partial (S := demoSim) (fun _ _ _ _ => rfl) (demo_clean false) rfl rfl h
  rw [hr] at e
  simp only [List.map_cons, List.map_nil, List.cons.injEq, Prod.mk.injEq, and_true, true_and] at e
  linarith

/-- The column `demoObj false` meets the hypotheses of `c184_partial`. -/
example : Spec.Clean (demoObj false) ∧ (demoObj false).bup.data.eff "A" = some [(0, 0), (10, 1)] ∧ (demoObj false).kInputList = false ∧
    ∃ rows o', saTrials demoSim "A" (fun _ => 1) [(2, 1 / 2)] (demoObj false) [] = (.ok rows, o') :=
  ⟨demo_clean false, rfl, rfl, saTrials_one⟩

/-! ### C185: the next grid spans the best point -/

/-- `x` lies between two points of a grid. -/
def Spec.Spans (g : List ℝ) (x : ℝ) : Prop := (∃ a ∈ g, a ≤ x) ∧ ∃ b ∈ g, x ≤ b

/-- C185. In the staged search of `run_all` the grid of the next loop spans the pair chosen in this loop. -/
def C185 : Prop := ∀ (findMin : List (ℝ × ℝ × ℝ) → Except PyErr (ℝ × ℝ)) (xnFix kFix xr kr : List ℝ) (loop n : ℕ) (st0 st st' : Stage)
  (rows : List (ℝ × ℝ × ℝ)) (m : ℝ × ℝ), loop < n → raGrid false xnFix kFix loop n st0 = ((xr, kr), st) →
  raRefine findMin xr kr rows st = .ok (m, st') →
  Spec.Spans (raGrid false xnFix kFix (loop + 1) n st').1.1 m.2 ∧ Spec.Spans (raGrid false xnFix kFix (loop + 1) n st').1.2 m.1

theorem linspaceN_length (a b : ℝ) (n : ℕ) : (linspaceN a b n).length = n := by simp [linspaceN]

theorem linspaceN_get (a b : ℝ) {n k : ℕ} (h : k < n) : (linspaceN a b n).getD k 0 = a + k * ((b - a) / ((n : ℝ) - 1)) := by
  simp [linspaceN, List.getD, h]

theorem linspaceN_ends {a b : ℝ} {n : ℕ} (h : 2 ≤ n) : a ∈ linspaceN a b n ∧ b ∈ linspaceN a b n := by
  have hn : ((n : ℝ) - 1) ≠ 0 := by
    have : (2 : ℝ) ≤ n := by exact_mod_cast h
    intro e; linarith
  constructor
  · exact List.mem_map.2 ⟨0, List.mem_range.2 (by omega), by simp⟩
  · refine List.mem_map.2 ⟨n - 1, List.mem_range.2 (by omega), ?_⟩
    rw [Nat.cast_sub (by omega), Nat.cast_one]
    field_simp
    ring

theorem linspaceN_mono {a b : ℝ} (hab : a ≤ b) {n i j : ℕ} (hn : 2 ≤ n) (hij : i ≤ j) (hj : j < n) :
    (linspaceN a b n).getD i 0 ≤ (linspaceN a b n).getD j 0 := by
  rw [linspaceN_get a b hj, linspaceN_get a b (lt_of_le_of_lt hij hj)]
  have h1 : (2 : ℝ) ≤ n := by exact_mod_cast hn
  have h2 : 0 ≤ (b - a) / ((n : ℝ) - 1) := div_nonneg (by linarith) (by linarith)
  have h3 : (i : ℝ) ≤ j := by exact_mod_cast hij
  nlinarith

theorem foldl_min_le_start (l : List ℝ) : ∀ a : ℝ, l.foldl min a ≤ a := by
  induction l with
  | nil => intro a; exact le_refl a
  | cons b l ih => intro a; exact (ih (min a b)).trans (min_le_left a b)

theorem le_foldl_max_start (l : List ℝ) : ∀ a : ℝ, a ≤ l.foldl max a := by
  induction l with
  | nil => intro a; exact le_refl a
  | cons b l ih => intro a; exact (le_max_left a b).trans (ih (max a b))

/-- A grid of `generate_grid` is evenly spaced between two bounds in order. -/
theorem genAxis_lin (n loop : ℕ) {d : ℝ × ℝ} (hd : d.1 ≤ d.2) (range : List ℝ) : ∃ a b, a ≤ b ∧ genAxis n loop d range = linspaceN a b n := by
  unfold genAxis
  split
  · exact ⟨_, _, hd, rfl⟩
  · exact ⟨_, _, (foldl_min_le_start range _).trans (le_foldl_max_start range _), rfl⟩

theorem genAxis_two {n loop : ℕ} {d : ℝ × ℝ} {a b : ℝ} (h : loop ≠ 0) :
    genAxis n loop d [a, b] = linspaceN (min a b) (max a b) n := by
  unfold genAxis
  rw [if_neg (fun hh => h hh.1)]
  simp

/-- The new bounds contain the point they were made for. -/
theorem raAxis_spans {a b des : ℝ} (hab : a ≤ b) (hd : 0 ≤ des) {N i n : ℕ} (hN : 2 ≤ N) (hi : i < N) :
    (raAxis (linspaceN a b N) des i n).1.1 ≤ (linspaceN a b N).getD i 0 ∧
      (linspaceN a b N).getD i 0 ≤ (raAxis (linspaceN a b N) des i n).1.2 := by
  have mono := fun (i j : ℕ) (h : i ≤ j) (hj : j < N) => linspaceN_mono hab hN h hj
  unfold raAxis
  simp only [linspaceN_length]
  by_cases h0 : i = 0
  · subst h0
    have hm : ¬ (0 = N - 1) := by omega
    simp only [if_true, if_neg hm]
    split
    · exact ⟨le_refl _, by simpa using hd⟩
    · exact ⟨le_refl _, mono 0 1 (by omega) (by omega)⟩
  · by_cases hm : i = N - 1
    · subst hm
      simp only [if_neg h0, if_true]
      split
      · exact ⟨by simpa using hd, le_refl _⟩
      · exact ⟨mono _ _ (by omega) (by omega), le_refl _⟩
    · simp only [if_neg h0, if_neg hm]
      split
      · exact ⟨mono _ _ (by omega) (by omega), mono _ _ (by omega) (by omega)⟩
      · exact ⟨mono _ _ (by omega) (by omega), mono _ _ (by omega) (by omega)⟩

theorem raAxis_num (range : List ℝ) (des : ℝ) (i : ℕ) {n : ℕ} (hn : 2 ≤ n) : 2 ≤ (raAxis range des i n).2 := by
  unfold raAxis
  simp only
  split
  · split
    · exact le_refl _
    · split
      · exact le_refl _
      · norm_num
  · exact hn

theorem findIdx_get {l : List ℝ} {x : ℝ} {i : ℕ} {p : ℝ → Bool} (hp : ∀ y, p y = true ↔ y = x) (h : l.findIdx? p = some i) :
    i < l.length ∧ l.getD i 0 = x := by
  obtain ⟨h1, h2, -⟩ := List.findIdx?_eq_some_iff_getElem.1 h
  refine ⟨h1, ?_⟩
  rw [List.getD, List.getElem?_eq_getElem h1]
  exact (hp _).1 h2

/-- What `raRefine` hands to the next loop. -/
theorem raRefine_bounds {findMin : List (ℝ × ℝ × ℝ) → Except PyErr (ℝ × ℝ)} {a b a' b' : ℝ} (hab : a ≤ b) (hab' : a' ≤ b') {st st' : Stage}
    {rows : List (ℝ × ℝ × ℝ)} {m : ℝ × ℝ}
    (h : raRefine findMin (linspaceN a b st.gx) (linspaceN a' b' st.gk) rows st = .ok (m, st')) :
    st'.xn1 = [st'.xnT.1, st'.xnT.2] ∧ st'.k1 = [st'.kT.1, st'.kT.2] ∧ 2 ≤ st'.gx ∧ 2 ≤ st'.gk ∧
      (st'.xnT.1 ≤ m.2 ∧ m.2 ≤ st'.xnT.2) ∧ st'.kT.1 ≤ m.1 ∧ m.1 ≤ st'.kT.2 := by
  unfold raRefine at h
  cases hf : findMin rows with
  | error e => rw [hf] at h; cases h
  | ok m1 =>
    rw [hf] at h
    simp only [bind, Except.bind, linspaceN_length] at h
    by_cases hlen : st.gx < 2 ∨ st.gk < 2
    · rw [if_pos hlen] at h; cases h
    · rw [if_neg hlen] at h
      push Not at hlen
      simp only [pure, Except.pure] at h
      split at h
      · rename_i ix ik hx hk
        simp only [Except.ok.injEq, Prod.mk.injEq] at h
        obtain ⟨rfl, rfl⟩ := h
        obtain ⟨x1, x2⟩ := findIdx_get (fun y => decide_eq_true_iff) hx
        obtain ⟨k1, k2⟩ := findIdx_get (fun y => decide_eq_true_iff) hk
        rw [linspaceN_length] at x1 k1
        refine ⟨rfl, rfl, raAxis_num _ _ _ hlen.1, raAxis_num _ _ _ hlen.2, ?_, ?_⟩
        · have := raAxis_spans (n := st.gx) hab (by norm_num : (0 : ℝ) ≤ 0.025) hlen.1 x1
          rwa [x2] at this
        · have := raAxis_spans (n := st.gk) hab' (by norm_num : (0 : ℝ) ≤ 0.1) hlen.2 k1
          rwa [k2] at this
      · cases h

theorem spans_two {d : ℝ × ℝ} {a b x : ℝ} {n loop : ℕ} (hl : loop ≠ 0) (hn : 2 ≤ n) (ha : a ≤ x) (hb : x ≤ b) :
    Spec.Spans (genAxis n loop d [a, b]) x := by
  rw [genAxis_two hl]
  obtain ⟨h1, h2⟩ := linspaceN_ends (a := min a b) (b := max a b) hn
  exact ⟨⟨_, h1, (min_le_left _ _).trans ha⟩, _, h2, hb.trans (le_max_right _ _)⟩

/-- The last grid, rounded outwards to multiples of `des`, spans what it was rounded from. -/
theorem spans_round {d : ℝ × ℝ} {a b x des : ℝ} {loop : ℕ} (hl : loop ≠ 0) (hd : 0 < des) (ha : a ≤ x) (hb : x ≤ b) :
    Spec.Spans (genAxis ⌊|((⌈b / des⌉ : ℤ) : ℝ) - ((⌊a / des⌋ : ℤ) : ℝ)| + 1⌋₊ loop d
      [((⌊a / des⌋ : ℤ) : ℝ) * des, ((⌈b / des⌉ : ℤ) : ℝ) * des]) x := by
  have h1 : ((⌊a / des⌋ : ℤ) : ℝ) * des ≤ x := by
    have := Int.floor_le (a / des)
    rw [le_div_iff₀ hd] at this
    exact this.trans ha
  have h2 : x ≤ ((⌈b / des⌉ : ℤ) : ℝ) * des := by
    have := Int.le_ceil (b / des)
    rw [div_le_iff₀ hd] at this
    exact hb.trans this
  have hle : ((⌊a / des⌋ : ℤ) : ℝ) ≤ ((⌈b / des⌉ : ℤ) : ℝ) := le_of_mul_le_mul_right (h1.trans h2) hd
  rcases eq_or_lt_of_le hle with he | hlt
  · rw [he] at h1
    rw [he, genAxis_two hl]
    have hx : x = ((⌈b / des⌉ : ℤ) : ℝ) * des := le_antisymm h2 h1
    have : (⌊|((⌈b / des⌉ : ℤ) : ℝ) - ((⌈b / des⌉ : ℤ) : ℝ)| + 1⌋₊) = 1 := by simp
    rw [this, min_self, max_self]
    have hm : x ∈ linspaceN (((⌈b / des⌉ : ℤ) : ℝ) * des) (((⌈b / des⌉ : ℤ) : ℝ) * des) 1 :=
      List.mem_map.2 ⟨0, by simp, by rw [hx]; simp⟩
    exact ⟨⟨x, hm, le_refl _⟩, x, hm, le_refl _⟩
  · refine spans_two hl ?_ h1 h2
    have hz : ⌊a / des⌋ + 1 ≤ ⌈b / des⌉ := by exact_mod_cast hlt
    have hr : ((⌊a / des⌋ : ℤ) : ℝ) + 1 ≤ ((⌈b / des⌉ : ℤ) : ℝ) := by exact_mod_cast hz
    refine Nat.le_floor ?_
    rw [abs_of_nonneg (by linarith)]
    push_cast
    linarith

/-- C185, as far as it holds: the multipliers of K always, and 1/n before the last loop and in the last loop if the rounded bound does not
exceed the end of the original range. Missing: 1/n in the last loop if it does, see `c185_false`. -/
theorem c185_partial {findMin : List (ℝ × ℝ × ℝ) → Except PyErr (ℝ × ℝ)} {xnFix kFix xr kr : List ℝ} {loop n : ℕ} {st0 st st' : Stage}
    {rows : List (ℝ × ℝ × ℝ)} {m : ℝ × ℝ} (h1 : raGrid false xnFix kFix loop n st0 = ((xr, kr), st))
    (h2 : raRefine findMin xr kr rows st = .ok (m, st')) :
    Spec.Spans (raGrid false xnFix kFix (loop + 1) n st').1.2 m.1 ∧
      (loop + 1 ≠ n ∨ (⌈st'.xnT.2 / 0.025⌉ : ℝ) * 0.025 ≤ xnFix.getLastD 0 →
        Spec.Spans (raGrid false xnFix kFix (loop + 1) n st').1.1 m.2) := by
  unfold raGrid at h1
  rw [if_neg (by decide)] at h1
  simp only [Prod.mk.injEq] at h1
  obtain ⟨⟨hx, hk⟩, hst⟩ := h1
  rw [hst] at hx hk
  obtain ⟨a, b, hab, ex⟩ := genAxis_lin st.gx loop (d := (0.3, 0.9)) (by norm_num) st.xn1
  obtain ⟨a', b', hab', ek⟩ := genAxis_lin st.gk loop (d := (1, 5)) (by norm_num) st.k1
  rw [ex] at hx
  rw [ek] at hk
  subst hx hk
  obtain ⟨e1, e2, g1, g2, x1, k1⟩ := raRefine_bounds hab hab' h2
  unfold raGrid
  rw [if_neg (by decide)]
  simp only
  by_cases hn : loop + 1 = n
  · rw [if_pos hn]
    refine ⟨spans_round (by omega) (by norm_num) k1.1 k1.2, fun ho => ?_⟩
    have ho' : ¬ ((⌈st'.xnT.2 / 0.025⌉ : ℝ) * 0.025 > xnFix.getLastD 0) := not_lt.2 (ho.resolve_left (fun h => h hn))
    have : (lastStage (xnFix.getLastD 0) st').gx =
        ⌊|((⌈st'.xnT.2 / 0.025⌉ : ℤ) : ℝ) - ((⌊st'.xnT.1 / 0.025⌋ : ℤ) : ℝ)| + 1⌋₊ := if_neg ho'
    rw [this, show (lastStage (xnFix.getLastD 0) st').xn1 =
      [((⌊st'.xnT.1 / 0.025⌋ : ℤ) : ℝ) * 0.025, ((⌈st'.xnT.2 / 0.025⌉ : ℤ) : ℝ) * 0.025] from if_neg ho']
    exact spans_round (by omega) (by norm_num) x1.1 x1.2
  · rw [if_neg hn, e1, e2]
    exact ⟨spans_two (by omega) g2 k1.1 k1.2, fun _ => spans_two (by omega) g1 x1.1 x1.2⟩

/-- C185 is false: an original range of one value, 1/2, searched from 0.3 to 0.9 in the first loop; 0.9 is best, the next grid ends at
1/2. -/
theorem c185_false : ¬ C185 := by
  intro H
  let st : Stage := ⟨(0, 0), (0, 0), [1 / 2], [1, 5], 2, 2⟩
  have hx : genAxis 2 0 (0.3, 0.9) [1 / 2] = [0.3, 0.9] := by
    norm_num [genAxis, linspaceN, List.range_succ]
  have hk : genAxis 2 0 (1, 5) [1, 5] = [1, 5] := by
    norm_num [genAxis, linspaceN, List.range_succ]
  have h1 : raGrid false [1 / 2] [1, 5] 0 1 st = (([0.3, 0.9], [1, 5]), st) := by
    unfold raGrid
    rw [if_neg (by decide)]
    simp only [show ¬ ((0 : ℕ) = 1) by decide, if_false]
    rw [show genAxis st.gx 0 (0.3, 0.9) st.xn1 = [0.3, 0.9] from hx, show genAxis st.gk 0 (1, 5) st.k1 = [1, 5] from hk]
  have h2 : raRefine (fun _ => .ok (5, 0.9)) [0.3, 0.9] [1, 5] [] st =
      .ok ((5, 0.9), ⟨(0.3, 0.9), (1, 5), [0.3, 0.9], [1, 5], 2, 2⟩) := by
    unfold raRefine
    norm_num [bind, Except.bind, pure, Except.pure, List.findIdx?_cons, raAxis, st]
  obtain ⟨⟨-, b, hb, hb'⟩, -⟩ := H _ _ _ _ _ 0 1 st st _ _ _ (by decide) h1 h2
  unfold raGrid at hb
  rw [if_neg (by decide)] at hb
  simp only [zero_add, if_true] at hb
  have c1 : (⌊(0.3 : ℝ) / 0.025⌋ : ℤ) = 12 := by rw [Int.floor_eq_iff]; norm_num
  have c2 : (⌈(0.9 : ℝ) / 0.025⌉ : ℤ) = 36 := by rw [Int.ceil_eq_iff]; norm_num
  have hx1 : (lastStage (([1 / 2] : List ℝ).getLastD 0) ⟨(0.3, 0.9), (1, 5), [0.3, 0.9], [1, 5], 2, 2⟩).xn1 = [0.3, 1 / 2] := by
    unfold lastStage
    simp only [c1, c2]
    norm_num
  have hg : (lastStage (([1 / 2] : List ℝ).getLastD 0) ⟨(0.3, 0.9), (1, 5), [0.3, 0.9], [1, 5], 2, 2⟩).gx = 24 := by
    unfold lastStage
    simp only [c1, c2]
    norm_num
  rw [hx1, hg, genAxis_two (by decide)] at hb
  obtain ⟨k, hk', rfl⟩ := List.mem_map.1 hb
  have : (k : ℝ) ≤ 23 := by exact_mod_cast Nat.lt_succ_iff.1 (List.mem_range.1 hk')
  norm_num at hb'
  linarith

/-- A search whose last grid stays inside the original range. -/
example : ∃ st st' : Stage, raGrid false [0.3, 0.9] [1, 5] 0 1 st = (([0.3, 0.9], [1, 5]), st) ∧
    raRefine (fun _ => .ok (5, 0.9)) [0.3, 0.9] [1, 5] [] st = .ok ((5, 0.9), st') ∧
    (⌈st'.xnT.2 / 0.025⌉ : ℝ) * 0.025 ≤ ([0.3, 0.9] : List ℝ).getLastD 0 := by
  refine ⟨⟨(0, 0), (0, 0), [0.3, 0.9], [1, 5], 2, 2⟩, ⟨(0.3, 0.9), (1, 5), [0.3, 0.9], [1, 5], 2, 2⟩, ?_, ?_, ?_⟩
  · unfold raGrid
    rw [if_neg (by decide)]
    norm_num [genAxis, linspaceN, List.range_succ]
  · unfold raRefine
    norm_num [bind, Except.bind, pure, Except.pure, List.findIdx?_cons, raAxis]
  · have c2 : (⌈(0.9 : ℝ) / 0.025⌉ : ℤ) = 36 := by rw [Int.ceil_eq_iff]; norm_num
    simp only [c2]
    norm_num

end WTM
