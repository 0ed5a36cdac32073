import Verif.Model.GacRunAll
import Verif.Props.GacFit

/-! Property C53 for `run_all` and `run_all_MP`: false. Every single-compound run resets the isotherm table
from the backup, so the fits of all compounds but the last are lost; and when the table was not supplied the
`1/n` recorded for every trial is 1, so 1 is the only `1/n` that can be chosen. -/
set_option autoImplicit false
namespace WTM

/-! ### Runs that cannot raise -/

theorem kfitGrid_returns {S : Sim} (hS : ∀ a d, ∃ r, (S a d).1 = .ok r) (c : String) (obs : ℝ → ℝ) (brk : ℝ)
    (km : ℝ → ℝ) : ∀ (l : List (ℝ × ℝ)) (o : GacObj) (acc : List (ℝ × ℝ × ℝ)),
      ∃ rows, (kfitGrid S c obs brk km l o acc).1 = .ok rows
  | [], o, acc => ⟨acc, rfl⟩
  | (i, x) :: rest, o, acc => by
    obtain ⟨r, hr⟩ := hS { o.core with kData := o.core.kData.set c (km x * i) x } o.der
    simp only [kfitGrid, runPsdm, hr]
    exact kfitGrid_returns hS c obs brk km rest _ _

theorem runKfit_returns {S : Sim} (hS : ∀ a d, ∃ r, (S a d).1 = .ok r) {o : GacObj} {c : String}
    (he : o.bup.data.eff c ≠ none) : ∃ out, (runKfit S o c).1 = .ok out := by
  obtain ⟨tab, ht⟩ := Option.ne_none_iff_exists'.1 he
  unfold runKfit
  rw [toSingle_eff, ht]
  simp only [kfitBody]
  split
  · rw [kfitOpt_fst]
    obtain ⟨rows, hrows⟩ := kfitGrid_returns hS c (interpExtrap tab)
      ((kfitFlag (toSingle o c)).core.kData c).brk (kMultOf (kfitFlag (toSingle o c)) c)
      ((kfitFlag (toSingle o c)).testRange.flatMap fun i => (kfitFlag (toSingle o c)).xnRange.map fun x => (i, x))
      (kfitFlag (toSingle o c)) []
    rw [hrows]
    exact ⟨_, rfl⟩
  · split
    · unfold kfitList
      simp only [runPsdm]
      obtain ⟨r, hr⟩ := hS { (kfitFlag (toSingle o c)).core with
        kData := (KTab.set (kfitFlag (toSingle o c)).core.kData c
          ((kfitFlag (toSingle o c)).testRange.headD 0) ((kfitFlag (toSingle o c)).xnRange.headD 0)) }
        (kfitFlag (toSingle o c)).der
      rw [hr]
      exact ⟨_, rfl⟩
    · unfold kfitPlain
      simp only [runPsdm]
      obtain ⟨r, hr⟩ := hS (kfitFlag (toSingle o c)).core (kfitFlag (toSingle o c)).der
      rw [hr]
      exact ⟨_, rfl⟩

/-- A column with two compounds `A` and `B`, both observed. -/
noncomputable def demoCore : Core where
  geom := ⟨100, 10, 1, 1, 1, 1, 1, 1, 1, 1⟩
  kData := fun _ => ⟨1, 1, 1, 3, 1⟩
  data := ⟨fun _ => some [(0, 1), (1, 1)], fun _ => some [(0, 0), (10, 1)]⟩
  compounds := ["A", "B"]
  numComps := 2
  jac := 2
  shape := 2
  mt := fun _ => ⟨0, 0, 0⟩

noncomputable def demoObj (list : Bool) : GacObj where
  core := demoCore
  der := derive 1 1 demoCore.geom
  bup := demoCore
  dw := 1
  vw := 1
  mtData := fun _ => ⟨0, 0, 0⟩
  optimize := true
  testRange := [1, 2]
  xnRange := [1 / 2, 1]
  kInputList := list
  xnDefault := 1
  kByXn := fun _ => none

/-- A simulation that never raises. -/
def demoSim : Sim := fun _ _ => (.ok fun _ _ => 0, fun _ => ⟨0, 0, 0⟩)

theorem demo_clean (b : Bool) : Spec.Clean (demoObj b) := ⟨rfl, rfl⟩

/-- The hypotheses of C51 and C83 are met by a run of this column. -/
example : ∃ out o', runKfit demoSim (demoObj true) "A" = (.ok out, o') := by
  obtain ⟨out, h⟩ := runKfit_returns (S := demoSim) (fun _ _ => ⟨_, rfl⟩) (o := demoObj true) (c := "A")
    (by intro h; cases h)
  exact ⟨out, _, Prod.ext h rfl⟩

/-- Those of C53 for `run_all_smart` and of C54 too. -/
example : ∃ o' log, runAllSmart demoSim (fun _ _ => 2) 50 10 0.025 40 (demoObj true) = .ok (o', log) := by
  have := c53_smart_returns (S := demoSim) (bkf := fun _ _ => 2) (pm := 50) (desXn := 0.025) (limit := 40)
    (num := 10) (m := 10) (demo_clean true) (fun _ _ => two_ne_zero) (by norm_num) (by norm_num) (by norm_num)
    (by norm_num)
  simpa using this

example : Spec.Local demoSim := fun _ _ _ _ => rfl

example : (demoObj true).core.compounds.Nodup := by
  show ["A", "B"].Nodup
  decide

/-! ### What a grid search does to the object -/

theorem raTrial_ok {S : Sim} {c : String} {km : ℝ → ℝ} {k xn : ℝ} {o o' : GacObj} {row : ℝ × ℝ × ℝ}
    (h : raTrial S c km k xn o = (.ok row, o')) :
    o'.core = o.bup ∧ o'.bup = o.bup ∧ o'.kInputList = o.kInputList ∧ o'.xnDefault = o.xnDefault ∧ row.1 = k ∧
    row.2.1 = (if o.kInputList = true then 1 else xn) := by
  unfold raTrial at h
  simp only [Prod.mk.injEq] at h
  obtain ⟨h1, h2⟩ := h
  set p : GacObj := { o with
    testRange := [k * km xn], xnRange := [xn]
    core := { o.core with kData := o.core.kData.set c (k * km xn) xn } } with hp
  obtain ⟨⟨r1, -, -, -, -, r6, r7, -⟩, -, g3, -⟩ := runKfit_ok S p c
  rw [h2] at r1 r6 r7 g3
  cases hr : (runKfit S p c).1 with
  | error e => rw [hr] at h1; cases h1
  | ok out =>
    rw [hr] at h1
    simp only [Except.map, Except.ok.injEq] at h1
    have hrun : runKfit S p c = (.ok out, o') := Prod.ext hr h2
    refine ⟨(g3 ⟨out, hr⟩).1, r1, r6, r7, by rw [← h1], ?_⟩
    have hone : oneTrial p := ⟨rfl, rfl⟩
    have hopt : (kfitFlag (toSingle p c)).optimize = false := by
      rw [(kfitFlag_rest (toSingle p c)).2.2.2, if_pos (show oneTrial (toSingle p c) from hone)]
    obtain ⟨f1, f2, f3, -⟩ := kfitFlag_rest (toSingle p c)
    obtain ⟨-, -, -, f4, f5, f6, -⟩ := f1
    have hone' : oneTrial (kfitFlag (toSingle p c)) := by
      unfold oneTrial; rw [f4, f5]; exact hone
    rw [← h1]
    simp only
    unfold runKfit at hrun
    rw [toSingle_eff] at hrun
    by_cases hk : o.kInputList = true
    · rw [if_pos hk]
      split at hrun
      · simp at hrun
      · simp only [kfitBody, hopt] at hrun
        rw [if_neg (by decide), if_pos ⟨f6.trans hk, hone'⟩] at hrun
        unfold kfitList at hrun
        simp only [runPsdm] at hrun
        split at hrun
        · simp at hrun
        · simp only [Prod.mk.injEq, Except.ok.injEq] at hrun
          rw [← hrun.1]
    · rw [if_neg hk]
      split at hrun
      · simp at hrun
      · simp only [kfitBody, hopt] at hrun
        rw [if_neg (by decide), if_neg (fun hh => hk (f6.symm.trans hh.1))] at hrun
        unfold kfitPlain at hrun
        simp only [runPsdm] at hrun
        split at hrun
        · simp at hrun
        · simp only [Prod.mk.injEq, Except.ok.injEq] at hrun
          rw [← hrun.1, f2]
          show (if c = c then _ else _ : KCol).xn = xn
          rw [if_pos rfl]

/-- The trials of a loop leave the table as the backup has it; rows of a list-type object have `1/n = 1`. -/
theorem raTrials_ok {S : Sim} {c : String} {km : ℝ → ℝ} : ∀ (l : List (ℝ × ℝ)) (o o' : GacObj)
    (acc rows : List (ℝ × ℝ × ℝ)), raTrials S c km l o acc = (.ok rows, o') →
      (l ≠ [] → o'.core = o.bup) ∧ o'.bup = o.bup ∧ o'.kInputList = o.kInputList ∧
      (o.kInputList = true → (∀ r ∈ acc, r.2.1 = 1) → ∀ r ∈ rows, r.2.1 = 1)
  | [], o, o', acc, rows, h => by
    simp only [raTrials, Prod.mk.injEq, Except.ok.injEq] at h
    obtain ⟨rfl, rfl⟩ := h
    exact ⟨fun h => absurd rfl h, rfl, rfl, fun _ h => h⟩
  | (k, xn) :: rest, o, o', acc, rows, h => by
    simp only [raTrials] at h
    split at h
    · simp at h
    · rename_i row o1 h1
      obtain ⟨a1, a2, a3, -, -, a6⟩ := raTrial_ok h1
      obtain ⟨b1, b2, b3, b4⟩ := raTrials_ok rest o1 o' (acc ++ [row]) rows h
      refine ⟨fun _ => ?_, b2.trans a2, b3.trans a3, fun hk hacc => b4 (a3.trans hk) (fun r hr => ?_)⟩
      · by_cases hrest : rest = []
        · subst hrest
          simp only [raTrials, Prod.mk.injEq] at h
          rw [← h.2, a1]
        · rw [b1 hrest, a2]
      · rcases List.mem_append.1 hr with hr | hr
        · exact hacc r hr
        · rw [List.mem_singleton.1 hr, a6, if_pos hk]

theorem raRefine_ok {findMin : List (ℝ × ℝ × ℝ) → Except PyErr (ℝ × ℝ)} {xr kr : List ℝ}
    {rows : List (ℝ × ℝ × ℝ)} {st st' : Stage} {m : ℝ × ℝ}
    (h : raRefine findMin xr kr rows st = .ok (m, st')) :
    2 ≤ xr.length ∧ 2 ≤ kr.length ∧ findMin rows = .ok m ∧ m.2 ∈ xr ∧ m.1 ∈ kr := by
  classical
  unfold raRefine at h
  cases hf : findMin rows with
  | error e => rw [hf] at h; cases h
  | ok m0 =>
    rw [hf] at h
    simp only [bind, Except.bind, throw, throwThe, MonadExceptOf.throw] at h
    split at h
    · cases h
    · rename_i hl
      push Not at hl
      split at h
      · rename_i ix ik hx hk
        simp only [pure, Except.pure, Except.ok.injEq, Prod.mk.injEq] at h
        obtain ⟨rfl, -⟩ := h
        obtain ⟨i1, i2, -⟩ := List.findIdx?_eq_some_iff_getElem.1 hx
        obtain ⟨j1, j2, -⟩ := List.findIdx?_eq_some_iff_getElem.1 hk
        exact ⟨hl.1, hl.2, rfl, by rw [← of_decide_eq_true i2]; exact List.getElem_mem _,
          by rw [← of_decide_eq_true j2]; exact List.getElem_mem _⟩
      · cases h

/-- The search's choice is among the rows. -/
def Spec.Picks (findMin : List (ℝ × ℝ × ℝ) → Except PyErr (ℝ × ℝ)) : Prop :=
  ∀ rows m, findMin rows = .ok m → ∃ r ∈ rows, r.1 = m.1 ∧ r.2.1 = m.2

theorem raLoops_ok {S : Sim} {findMin : List (ℝ × ℝ × ℝ) → Except PyErr (ℝ × ℝ)} {brute : Bool}
    {xnFix kFix : List ℝ} {n : ℕ} {c : String} {km : ℝ → ℝ} :
    ∀ (loops : List ℕ) (st st' : Stage) (b m : ℝ × ℝ) (o o' : GacObj),
      raLoops S findMin brute xnFix kFix n c km loops st b o = (.ok (m, st'), o') →
      (loops ≠ [] → o'.core = o.bup) ∧ o'.bup = o.bup ∧ o'.kInputList = o.kInputList ∧
      (loops ≠ [] → o.kInputList = true → Spec.Picks findMin → m.2 = 1)
  | [], st, st', b, m, o, o', h => by
    simp only [raLoops, Prod.mk.injEq, Except.ok.injEq] at h
    obtain ⟨-, rfl⟩ := h
    exact ⟨fun h => absurd rfl h, rfl, rfl, fun h => absurd rfl h⟩
  | loop :: rest, st, st', b, m, o, o', h => by
    simp only [raLoops] at h
    split at h
    · simp at h
    · rename_i rows o1 h1
      split at h
      · simp at h
      · rename_i m1 st1 h2
        obtain ⟨l1, l2, l3, l4, l5⟩ := raRefine_ok h2
        obtain ⟨t1, t2, t3, t4⟩ := raTrials_ok _ _ _ _ _ h1
        have hne : ((raGrid brute xnFix kFix loop n st).1.2.flatMap fun k =>
            (raGrid brute xnFix kFix loop n st).1.1.map fun x => (k, x)) ≠ [] := by
          intro he
          rw [List.flatMap_eq_nil_iff] at he
          have := he m1.1 l5
          rw [List.map_eq_nil_iff] at this
          rw [this] at l4
          cases l4
        obtain ⟨r1, r2, r3, r4⟩ := raLoops_ok rest st1 st' m1 m o1 o' h
        refine ⟨fun _ => ?_, r2.trans t2, r3.trans t3, fun _ hk hp => ?_⟩
        · by_cases hrest : rest = []
          · subst hrest
            simp only [raLoops, Prod.mk.injEq] at h
            rw [← h.2, t1 hne]
          · rw [r1 hrest, t2]
        · by_cases hrest : rest = []
          · subst hrest
            simp only [raLoops, Prod.mk.injEq, Except.ok.injEq] at h
            obtain ⟨⟨rfl, -⟩, -⟩ := h
            obtain ⟨r, hr, -, e⟩ := hp rows m1 l3
            rw [← e]
            exact t4 hk (fun r hr => by cases hr) r hr
          · exact r4 hrest (t3.trans hk) hp

theorem raCompound_ok {S : Sim} {findMin : List (ℝ × ℝ × ℝ) → Except PyErr (ℝ × ℝ)} {brute : Bool}
    {xnFix kFix : List ℝ} {g n : ℕ} {c : String} {tmp : (ℝ × ℝ) × (ℝ × ℝ)} {o o' : GacObj}
    {best : ℝ × ℝ} {st : Stage}
    (h : raCompound S findMin brute xnFix kFix g n c tmp o = (.ok (best, st), o')) :
    o'.core = { o.bup with kData := o.bup.kData.set c best.1 best.2 } ∧ o'.bup = o.bup ∧
    o'.kInputList = o.kInputList ∧ (o.kInputList = true → Spec.Picks findMin → best.2 = 1) := by
  unfold raCompound at h
  simp only at h
  split at h
  · simp at h
  · rename_i m st0 o1 h1
    have hne : List.range ((if brute = true then 0 else n) + 1) ≠ [] := by
      intro he
      have := congrArg List.length he
      simp at this
    obtain ⟨r1, r2, r3, r4⟩ := raLoops_ok _ _ _ _ _ _ _ h1
    simp only [Prod.mk.injEq, Except.ok.injEq] at h
    obtain ⟨⟨rfl, -⟩, rfl⟩ := h
    refine ⟨?_, r2, r3, r4 hne⟩
    show ({ o1.core with kData := _ } : Core) = _
    rw [r1 hne]

theorem raAll_ok {S : Sim} {findMin : List (ℝ × ℝ × ℝ) → Except PyErr (ℝ × ℝ)} {brute : Bool}
    {xnFix kFix : List ℝ} {g n : ℕ} :
    ∀ (l : List String) (tmp : (ℝ × ℝ) × (ℝ × ℝ)) (o o' : GacObj) (log log' : List (String × (ℝ × ℝ))),
      raAll S findMin brute xnFix kFix g n l tmp o log = (.ok log', o') →
      o'.bup = o.bup ∧ log'.map Prod.fst = log.map Prod.fst ++ l ∧
      (∀ l' c, l = l' ++ [c] → ∃ best, log'.getLast? = some (c, best) ∧
        o'.core = { o.bup with kData := o.bup.kData.set c best.1 best.2 }) ∧
      (o.kInputList = true → Spec.Picks findMin → (∀ p ∈ log, p.2.2 = 1) → ∀ p ∈ log', p.2.2 = 1)
  | [], tmp, o, o', log, log', h => by
    simp only [raAll, Prod.mk.injEq, Except.ok.injEq] at h
    obtain ⟨rfl, rfl⟩ := h
    refine ⟨rfl, by simp, fun l' c hl => ?_, fun _ _ h => h⟩
    simp at hl
  | c :: rest, tmp, o, o', log, log', h => by
    simp only [raAll] at h
    split at h
    · simp at h
    · rename_i best st o1 h1
      obtain ⟨a1, a2, a3, a4⟩ := raCompound_ok h1
      obtain ⟨b1, b2, b3, b4⟩ := raAll_ok rest _ o1 o' _ log' h
      refine ⟨b1.trans a2, by rw [b2]; simp, fun l' d hl => ?_, fun hk hp hlog => ?_⟩
      · by_cases hrest : rest = []
        · subst hrest
          have hd : d = c := by
            have := congrArg List.getLast? hl
            simp at this
            exact this.symm
          simp only [raAll, Prod.mk.injEq, Except.ok.injEq] at h
          obtain ⟨rfl, rfl⟩ := h
          exact ⟨best, by rw [hd]; simp, by rw [hd]; exact a1⟩
        · obtain ⟨l2, d2, e2⟩ : ∃ l2 d2, rest = l2 ++ [d2] :=
            ⟨rest.dropLast, rest.getLast hrest, (List.dropLast_append_getLast hrest).symm⟩
          have hd : d2 = d := by
            have := congrArg List.getLast? hl
            rw [e2, ← List.cons_append, List.getLast?_concat, List.getLast?_concat] at this
            exact Option.some.inj this
          obtain ⟨best', x1, x2⟩ := b3 l2 d2 e2
          exact ⟨best', by rw [← hd]; exact x1, by rw [x2, a2, hd]⟩
      · refine b4 (a3.trans hk) hp (fun p hpm => ?_)
        rcases List.mem_append.1 hpm with hpm | hpm
        · exact hlog p hpm
        · rw [List.mem_singleton.1 hpm]
          exact a4 hk hp

/-- C53, what `run_all` does: only the last compound's choice is in the table afterwards; every other compound
has the constants it had in the backup. -/
theorem c53_run_all_last {S : Sim} {findMin : List (ℝ × ℝ × ℝ) → Except PyErr (ℝ × ℝ)} {brute : Bool}
    {g n : ℕ} {o o' : GacObj} {log : List (String × (ℝ × ℝ))} {l : List String} {c : String}
    (hl : o.core.compounds = l ++ [c]) (h : runAll S findMin brute g n o = (.ok log, o')) :
    ∃ best, log.getLast? = some (c, best) ∧ log.map Prod.fst = o.core.compounds ∧
      (o'.core.kData c).K = best.1 ∧ (o'.core.kData c).xn = best.2 ∧
      ∀ c', c' ≠ c → o'.core.kData c' = o.bup.kData c' := by
  unfold runAll at h
  split at h
  · simp at h
  · rename_i log1 o1 h1
    simp only [Prod.mk.injEq, Except.ok.injEq] at h
    obtain ⟨rfl, rfl⟩ := h
    obtain ⟨-, b2, b3, -⟩ := raAll_ok _ _ _ _ _ _ h1
    obtain ⟨best, x1, x2⟩ := b3 l c hl
    refine ⟨best, x1, by simpa using b2, ?_, ?_, fun c' hc => ?_⟩
    · show (o1.core.kData c).K = _
      rw [x2]
      show (if c = c then _ else _ : KCol).K = _
      rw [if_pos rfl]
    · show (o1.core.kData c).xn = _
      rw [x2]
      show (if c = c then _ else _ : KCol).xn = _
      rw [if_pos rfl]
    · show o1.core.kData c' = _
      rw [x2]
      exact if_neg hc

/-- C53 for `run_all`, the part that holds: with a single compound its choice is stored. Missing: any
earlier compound of the list (`c53_run_all_false`). -/
theorem c53_run_all_partial {S : Sim} {findMin : List (ℝ × ℝ × ℝ) → Except PyErr (ℝ × ℝ)} {brute : Bool}
    {g n : ℕ} {o o' : GacObj} {log : List (String × (ℝ × ℝ))} {c : String} (hl : o.core.compounds = [c])
    (h : runAll S findMin brute g n o = (.ok log, o')) :
    ∃ best, log = [(c, best)] ∧ (o'.core.kData c).K = best.1 ∧ (o'.core.kData c).xn = best.2 := by
  obtain ⟨best, h1, h2, h3, h4, -⟩ := c53_run_all_last (l := []) hl h
  refine ⟨best, ?_, h3, h4⟩
  rw [hl] at h2
  match log, h1, h2 with
  | [p], h1, _ => simpa using h1

/-- C53, what `run_all` does when no table was supplied: every choice has `1/n = 1`. -/
theorem c53_run_all_one {S : Sim} {findMin : List (ℝ × ℝ × ℝ) → Except PyErr (ℝ × ℝ)} {brute : Bool}
    {g n : ℕ} {o o' : GacObj} {log : List (String × (ℝ × ℝ))} (hp : Spec.Picks findMin)
    (hk : o.kInputList = true) (h : runAll S findMin brute g n o = (.ok log, o')) :
    ∀ p ∈ log, p.2.2 = 1 := by
  unfold runAll at h
  split at h
  · simp at h
  · rename_i log1 o1 h1
    simp only [Prod.mk.injEq, Except.ok.injEq] at h
    obtain ⟨rfl, -⟩ := h
    exact (raAll_ok _ _ _ _ _ _ h1).2.2.2 hk hp (fun p hp => by cases hp)

/-! ### C53 is false of `run_all` -/

/-- C53 for `run_all`: the constants chosen for a compound are those in the table afterwards. -/
def C53RunAll : Prop :=
  ∀ (S : Sim) (findMin : List (ℝ × ℝ × ℝ) → Except PyErr (ℝ × ℝ)) (brute : Bool) (g n : ℕ) (o o' : GacObj)
    (log : List (String × (ℝ × ℝ))), Spec.Clean o → o.core.compounds.Nodup → Spec.Picks findMin →
    runAll S findMin brute g n o = (.ok log, o') →
    ∀ p ∈ log, (o'.core.kData p.1).K = p.2.1 ∧ (o'.core.kData p.1).xn = p.2.2

theorem raTrials_returns {S : Sim} (hS : ∀ a d, ∃ r, (S a d).1 = .ok r) {c : String} (km : ℝ → ℝ) :
    ∀ (l : List (ℝ × ℝ)) (o : GacObj) (acc : List (ℝ × ℝ × ℝ)), o.bup.data.eff c ≠ none →
      o.kInputList = false → ∃ rows o', raTrials S c km l o acc = (.ok rows, o') ∧
      rows.map (fun r => (r.1, r.2.1)) = acc.map (fun r => (r.1, r.2.1)) ++ l
  | [], o, acc, _, _ => ⟨acc, o, rfl, by simp⟩
  | (k, xn) :: rest, o, acc, he, hk => by
    obtain ⟨out, ho⟩ := runKfit_returns hS (o := { o with
      testRange := [k * km xn], xnRange := [xn]
      core := { o.core with kData := o.core.kData.set c (k * km xn) xn } }) (c := c) he
    have ht : ∃ row o1, raTrial S c km k xn o = (.ok row, o1) := by
      unfold raTrial
      simp only [ho]
      exact ⟨_, _, rfl⟩
    obtain ⟨row, o1, ht⟩ := ht
    obtain ⟨a1, a2, a3, -, a5, a6⟩ := raTrial_ok ht
    rw [if_neg (by rw [hk]; decide)] at a6
    obtain ⟨rows, o', h1, h2⟩ := raTrials_returns hS km rest o1 (acc ++ [row]) (by rw [a2]; exact he)
      (a3.trans hk)
    refine ⟨rows, o', ?_, ?_⟩
    · simp only [raTrials, ht]
      exact h1
    · rw [h2, List.map_append, List.map_cons, List.map_nil, a5, a6, List.append_assoc]
      rfl

/-- The last row, whatever the errors. -/
def pickLast (rows : List (ℝ × ℝ × ℝ)) : Except PyErr (ℝ × ℝ) :=
  match rows.getLast? with
  | some r => .ok (r.1, r.2.1)
  | none => .error .valueError

theorem pickLast_picks : Spec.Picks pickLast := by
  intro rows m h
  unfold pickLast at h
  split at h
  · rename_i r hr
    simp only [Except.ok.injEq] at h
    rw [← h]
    exact ⟨r, List.mem_of_getLast? hr, rfl, rfl⟩
  · cases h

theorem demo_compound (c : String) (tmp : (ℝ × ℝ) × (ℝ × ℝ)) (o : GacObj) (hk : o.kInputList = false)
    (he : o.bup.data.eff c ≠ none) :
    ∃ st o', raCompound demoSim pickLast true [1 / 2, 1] [1, 2] 5 3 c tmp o =
      (.ok ((2 * recalcK (o.core.kData c).K (o.core.kData c).q o.xnDefault 1, 1), st), o') := by
  classical
  obtain ⟨rows, o1, h1, h2⟩ := raTrials_returns (S := demoSim) (fun _ _ => ⟨_, rfl⟩) (c := c)
    (fun x => recalcK (o.core.kData c).K (o.core.kData c).q o.xnDefault x)
    ([1, 2].flatMap fun k : ℝ => [1 / 2, 1].map fun x : ℝ => (k, x)) o [] he hk
  have hlast : pickLast rows = .ok (2, 1) := by
    have e : (rows.getLast?).map (fun r => (r.1, r.2.1)) = some ((2 : ℝ), (1 : ℝ)) := by
      rw [← List.getLast?_map, h2]
      rfl
    unfold pickLast
    cases hr : rows.getLast? with
    | none => rw [hr] at e; cases e
    | some r =>
      rw [hr] at e
      simp only [Option.map_some, Option.some.injEq] at e
      simp only [e]
  have hx : List.findIdx? (fun x => @decide (x = (1 : ℝ)) (Classical.propDecidable _)) [1 / 2, 1] = some 1 := by
    rw [List.findIdx?_eq_some_iff_getElem]
    refine ⟨by simp, by simp, fun j hj => ?_⟩
    have : j = 0 := by omega
    subst this
    simp
  have hkk : List.findIdx? (fun x => @decide (x = (2 : ℝ)) (Classical.propDecidable _)) [1, 2] = some 1 := by
    rw [List.findIdx?_eq_some_iff_getElem]
    refine ⟨by simp, by simp, fun j hj => ?_⟩
    have : j = 0 := by omega
    subst this
    simp
  unfold raCompound
  simp only [if_true, zero_add, List.range_one, raLoops, raGrid]
  rw [h1]
  simp only [raRefine, hlast, bind, Except.bind]
  rw [hx, hkk]
  simp [pure, Except.pure]

theorem c53_run_all_false : ¬ C53RunAll := by
  intro h
  obtain ⟨st1, o1, h1⟩ := demo_compound "A" ((0, 0), (0, 0)) { demoObj false with optimize := false } rfl
    (by intro h; cases h)
  obtain ⟨-, e2, e3, -⟩ := raCompound_ok h1
  obtain ⟨st2, o2, h2⟩ := demo_compound "B" (st1.xnT, st1.kT) o1 (e3.trans rfl)
    (by rw [e2]; intro h; cases h)
  have hrun : ∃ log o', runAll demoSim pickLast true 5 3 (demoObj false) = (.ok log, o') ∧
      ("A", (2 * recalcK 1 1 1 1, 1)) ∈ log := by
    have hall : ∃ p2, raAll demoSim pickLast true [1 / 2, 1] [1, 2] 5 3 ["A", "B"] ((0, 0), (0, 0))
        { demoObj false with optimize := false } [] =
        (.ok [("A", (2 * recalcK 1 1 1 1, 1)), ("B", p2)], o2) := by
      unfold raAll
      rw [h1]
      simp only
      unfold raAll
      rw [h2]
      exact ⟨_, rfl⟩
    obtain ⟨p2, hall⟩ := hall
    unfold runAll
    rw [show raAll demoSim pickLast true (demoObj false).xnRange (demoObj false).testRange 5 3
      (demoObj false).core.compounds ((0, 0), (0, 0)) { demoObj false with optimize := false } [] = _ from hall]
    exact ⟨_, _, rfl, List.mem_cons_self⟩
  obtain ⟨log, o', hr, hm⟩ := hrun
  have := (h _ _ _ _ _ _ _ _ (demo_clean false) (by show ["A", "B"].Nodup; decide) pickLast_picks hr _ hm).1
  obtain ⟨best, -, -, -, -, hlost⟩ := c53_run_all_last (l := ["A"]) (c := "B") rfl hr
  rw [hlost "A" (by decide)] at this
  have e : recalcK 1 1 1 1 = 1 := by simp [recalcK]
  rw [e] at this
  norm_num [demoObj, demoCore] at this

/-! ### `run_all_MP` -/

/-- C53, what `run_all_MP` does: when the last compound is fitted, all the others have the constants of the
backup again. -/
theorem c53_mp_last {S : Sim} {findMin : List (ℝ × ℝ × ℝ) → Except PyErr (ℝ × ℝ)}
    {work : GacObj → String → Except PyErr (List (ℝ × ℝ × ℝ))} {flat : List (ℝ × ℝ × ℝ) → Bool} :
    ∀ (l : List String) (c : String) (o o' : GacObj) (log log' : List (String × Option (ℝ × ℝ))) (b : ℝ × ℝ),
      mpAll S findMin work flat (l ++ [c]) o log = (.ok log', o') → log'.getLast? = some (c, some b) →
      ∀ c', c' ≠ c → o'.core.kData c' = o.bup.kData c'
  | [], c, o, o', log, log', b, h, hlast => by
    intro c' hc
    simp only [List.nil_append, mpAll] at h
    split at h
    · simp at h
    · rename_i best o1 h1
      simp only [Prod.mk.injEq, Except.ok.injEq] at h
      obtain ⟨rfl, rfl⟩ := h
      rw [List.getLast?_append, List.getLast?_singleton] at hlast
      simp at hlast
      subst hlast
      unfold mpCompound at h1
      simp only at h1
      split at h1
      · simp at h1
      · split at h1
        · simp at h1
        · split at h1
          · simp at h1
          · split at h1
            · simp at h1
            · rename_i m hm _ out o2 hr
              simp only [Prod.mk.injEq, Except.ok.injEq] at h1
              obtain ⟨-, rfl⟩ := h1
              have g := (runKfit_ok S { o with testRange := [m.1 * recalcK (o.core.kData c).K
                (o.core.kData c).q o.xnDefault m.2], xnRange := [m.2] } c).2.2.1
              rw [hr] at g
              have g1 := (g ⟨out, rfl⟩).1
              show (o2.core.kData.set c _ _) c' = _
              rw [show o2.core = o.bup from g1]
              exact if_neg hc
  | d :: l, c, o, o', log, log', b, h, hlast => by
    simp only [List.cons_append, mpAll] at h
    split at h
    · simp at h
    · rename_i best o1 h1
      have hb : o1.bup = o.bup := by
        unfold mpCompound at h1
        simp only at h1
        split at h1
        · simp at h1
        · split at h1
          · simp only [Prod.mk.injEq] at h1
            rw [← h1.2]
          · split at h1
            · simp at h1
            · split at h1
              · simp at h1
              · rename_i m hm _ out o2 hr
                simp only [Prod.mk.injEq, Except.ok.injEq] at h1
                obtain ⟨-, rfl⟩ := h1
                have g := (runKfit_ok S { o with testRange := [m.1 * recalcK (o.core.kData d).K
                  (o.core.kData d).q o.xnDefault m.2], xnRange := [m.2] } d).1.1
                rw [hr] at g
                exact g
      intro c' hc
      rw [c53_mp_last l c o1 o' _ log' b h hlast c' hc, hb]

end WTM
