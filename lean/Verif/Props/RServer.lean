import Verif.Model.RServer
import Verif.Props.RIexApp
import Verif.Props.RGac
import Verif.Props.RPac

/-! Property C263: the web applications with several windows open at once. -/
set_option autoImplicit false
namespace WTM

/-! ### Specification -/

variable {F B S E : Type}

/-- The window of an event. -/
def Spec.window : RWebEv B E → ℕ
  | .opens i => i
  | .upload i _ => i
  | .acts i _ => i

/-- Specification: what a window shows is what it would show if nobody else used the application. -/
def Spec.Alone (W : RWeb F B S E) : Prop := ∀ (f : F) (evs : List (RWebEv B E)) (i : ℕ),
  (W.exec f evs).2 i = (W.exec f (evs.filter fun e => Spec.window e = i)).2 i

/-- Specification: the event writes no files, whatever the session. -/
def Spec.Quiet (W : RWeb F B S E) : RWebEv B E → Prop
  | .opens _ => True
  | .upload _ _ => False
  | .acts _ e => ∀ x f, W.write x e f = f

/-- C263. Windows of an application do not disturb one another. -/
def C263 : Prop :=
  (∀ (T : Type) (noEff : T) (screen : RIexFiles T → RIexIn) (solve : RIexIn → Except PyErr (List (List ℝ))),
    Spec.Alone (rIexWeb noEff screen solve)) ∧
  (∀ (T S E : Type) (screen : RPacFiles T → S) (act : S → E → S), Spec.Alone (rPacWeb screen act)) ∧
  ∀ (T R : Type) (A : RGacApp T R), Spec.Alone (rGacWeb A)

/-! ### What fails -/

theorem exec_snoc (W : RWeb F B S E) (f : F) (evs : List (RWebEv B E)) (e : RWebEv B E) :
    W.exec f (evs ++ [e]) = W.step (W.exec f evs) e := by
  unfold RWeb.exec
  rw [List.foldl_append]
  rfl

theorem exec_append (W : RWeb F B S E) (f : F) (evs l : List (RWebEv B E)) : W.exec f (evs ++ l) = l.foldl W.step (W.exec f evs) := by
  unfold RWeb.exec
  rw [List.foldl_append]

/-- C263. If any workbook changes what a new page shows, windows disturb one another: a page loaded after somebody else's upload shows that
workbook. -/
theorem c263_disturbs (W : RWeb F B S E) {f : F} {b : B} (h : W.start (W.read f b) ≠ W.start f) : ¬ Spec.Alone W := by
  intro H
  have h1 := H f [.upload 1 b, .opens 0] 0
  simp [RWeb.exec, RWeb.step, Spec.window] at h1
  exact h h1

/-- C263. The order matters too: between an upload and the loading of the page another upload may come, and then the page shows the other
workbook. -/
theorem c263_race (W : RWeb F B S E) {f : F} {b b' : B} (h : W.start (W.read (W.read f b) b') ≠ W.start (W.read f b)) :
    (W.exec f [.opens 0, .upload 0 b, .upload 1 b', .opens 0]).2 0 ≠ (W.exec f [.opens 0, .upload 0 b, .opens 0]).2 0 := by
  simp [RWeb.exec, RWeb.step]
  exact h

/-- C263 is false, of each of the three applications. -/
theorem c263_false : (¬ ∀ (T : Type) (noEff : T) (screen : RIexFiles T → RIexIn) (solve : RIexIn → Except PyErr (List (List ℝ))),
      Spec.Alone (rIexWeb noEff screen solve)) ∧
    (¬ ∀ (T S E : Type) (screen : RPacFiles T → S) (act : S → E → S), Spec.Alone (rPacWeb screen act)) ∧
    (¬ ∀ (T R : Type) (A : RGacApp T R), Spec.Alone (rGacWeb A)) ∧ ¬ C263 := by
  have h1 : ¬ ∀ (T S E : Type) (screen : RPacFiles T → S) (act : S → E → S), Spec.Alone (rPacWeb screen act) := by
    intro H
    refine c263_disturbs _ (f := ⟨0, 0, 0⟩) (b := fun _ => some 1) ?_ (H ℕ ℕ Unit (fun f => f.pac) (fun s _ => s))
    simp [rPacWeb, rPacRead]
  refine ⟨fun H => ?_, h1, fun H => ?_, fun H => h1 H.2.1⟩
  · refine c263_disturbs _ (f := ⟨[], 0, 0, 0⟩) (b := ⟨none, some 1, none, none⟩) ?_
      (H ℝ 0 (fun f => ⟨c178Form, [], [f.ions], [], false⟩) fun _ => .error .valueError)
    simp [rIexWeb, rIexRead]
  · refine c263_disturbs _ (f := exFiles) (b := ⟨none, some 7, none, none, none⟩) ?_ (H ℕ Unit ⟨exGac true 0.8 0.6 1, fun _ => .error .valueError,
      fun _ => .error .valueError, 0, fun _ => true⟩)
    intro h
    have : (7 : ℕ) = exFiles.k := congrArg (fun s => s.k) h
    simp [exFiles] at this

/-! ### What holds -/

/-- C263, as far as it holds: if nobody else uploads or writes files. Missing: pages loaded after somebody else did. -/
theorem c263_partial (W : RWeb F B S E) (f : F) (evs : List (RWebEv B E)) (i : ℕ) (h : ∀ e ∈ evs, Spec.window e ≠ i → Spec.Quiet W e) :
    (W.exec f evs).2 i = (W.exec f (evs.filter fun e => Spec.window e = i)).2 i := by
  have key : (W.exec f evs).1 = (W.exec f (evs.filter fun e => Spec.window e = i)).1 ∧
      (W.exec f evs).2 i = (W.exec f (evs.filter fun e => Spec.window e = i)).2 i := by
    induction evs using List.reverseRecOn with
    | nil => exact ⟨rfl, rfl⟩
    | append_singleton evs e ih =>
      obtain ⟨i1, i2⟩ := ih fun e' he' => h e' (List.mem_append_left _ he')
      have hq := h e (List.mem_append_right _ (List.mem_singleton_self e))
      rw [exec_snoc, List.filter_append]
      by_cases hw : Spec.window e = i
      · have e1 : ([e].filter fun e => Spec.window e = i) = [e] := by simp [hw]
        rw [e1, exec_snoc]
        cases e with
        | opens j =>
          have hj : j = i := hw
          subst hj
          simp [RWeb.step, i1]
        | upload j b => exact ⟨by simp [RWeb.step, i1], by simpa [RWeb.step] using i2⟩
        | acts j a =>
          have hj : j = i := hw
          subst hj
          simp only [RWeb.step]
          rw [← i2]
          cases (W.exec f evs).2 j with
          | none => exact ⟨i1, by simpa using i2⟩
          | some x => exact ⟨by simp [i1], by simp⟩
      · have e1 : ([e].filter fun e => Spec.window e = i) = [] := by simp [hw]
        rw [e1, List.append_nil]
        have hq' := hq hw
        cases e with
        | opens j =>
          have hj : i ≠ j := fun e => hw e.symm
          exact ⟨i1, by simp [RWeb.step, Function.update_of_ne hj, i2]⟩
        | upload j b => exact hq'.elim
        | acts j a =>
          have hj : i ≠ j := fun e => hw e.symm
          simp only [RWeb.step]
          cases (W.exec f evs).2 j with
          | none => exact ⟨i1, i2⟩
          | some x => exact ⟨(hq' x _).trans i1, by simp [Function.update_of_ne hj, i2]⟩
  exact key.2

/-- C263. What others do leaves an open page as it is; only loading it again shows what they wrote. -/
theorem c263_page (W : RWeb F B S E) (f : F) (evs others : List (RWebEv B E)) (i : ℕ) (h : ∀ e ∈ others, Spec.window e ≠ i) :
    (W.exec f (evs ++ others)).2 i = (W.exec f evs).2 i := by
  induction others using List.reverseRecOn with
  | nil => rw [List.append_nil]
  | append_singleton l e ih =>
    rw [← List.append_assoc, exec_snoc, ← ih fun e' he' => h e' (List.mem_append_left _ he')]
    have hw := h e (List.mem_append_right _ (List.mem_singleton_self e))
    cases e with
    | opens j => exact Function.update_of_ne (fun e => hw e.symm) _ _
    | upload j b => rfl
    | acts j a =>
      have hj : i ≠ j := fun e => hw e.symm
      simp only [RWeb.step]
      cases (W.exec f (evs ++ l)).2 j with
      | none => rfl
      | some x => exact Function.update_of_ne hj _ _

/-- C263. After an upload the page shows the workbook, if nothing is written before it is loaded. -/
theorem c263_upload (W : RWeb F B S E) (f : F) (evs mid : List (RWebEv B E)) (i : ℕ) (b : B) (h : ∀ e ∈ mid, Spec.Quiet W e) :
    (W.exec f (evs ++ [.upload i b] ++ mid ++ [.opens i])).2 i = some (W.start (W.read (W.exec f evs).1 b)) := by
  have hf : (W.exec f (evs ++ [.upload i b] ++ mid)).1 = W.read (W.exec f evs).1 b := by
    induction mid using List.reverseRecOn with
    | nil => rw [List.append_nil, exec_snoc]; rfl
    | append_singleton l e ih =>
      have hq := h e (List.mem_append_right _ (List.mem_singleton_self e))
      rw [← List.append_assoc, exec_snoc, ← ih fun e' he' => h e' (List.mem_append_left _ he')]
      cases e with
      | opens j => rfl
      | upload j b => exact hq.elim
      | acts j a =>
        simp only [RWeb.step]
        cases (W.exec f (evs ++ [.upload i b] ++ l)).2 j with
        | none => rfl
        | some x => exact hq x _
  rw [exec_snoc]
  simp only [RWeb.step, Function.update_self, hf]

/-- The workbooks uploaded, in order, whoever did it. -/
def Spec.books (evs : List (RWebEv B E)) : List B := evs.filterMap fun
  | .upload _ b => some b
  | _ => none

/-- C263. In an application whose actions write no files, a page that is loaded shows the files of the start with all uploads in order,
whoever made them. -/
theorem c263_newest (W : RWeb F B S E) (hW : ∀ x e f, W.write x e f = f) (f : F) (evs : List (RWebEv B E)) (i : ℕ) :
    (W.exec f (evs ++ [.opens i])).2 i = some (W.start ((Spec.books evs).foldl W.read f)) := by
  have hf : (W.exec f evs).1 = (Spec.books evs).foldl W.read f := by
    induction evs using List.reverseRecOn with
    | nil => rfl
    | append_singleton l e ih =>
      rw [exec_snoc]
      unfold Spec.books at ih ⊢
      rw [List.filterMap_append, List.foldl_append, ← ih]
      cases e with
      | opens j => rfl
      | upload j b => rfl
      | acts j a =>
        simp only [RWeb.step]
        cases (W.exec f l).2 j with
        | none => rfl
        | some x => exact hW x a _
  rw [exec_snoc]
  simp only [RWeb.step, Function.update_self, hf]

/-- C263. In the ion-exchange application a new page shows of parameters, ions and influent the last one that anybody uploaded. -/
theorem c263_iex {T : Type} (noEff : T) (screen : RIexFiles T → RIexIn) (solve : RIexIn → Except PyErr (List (List ℝ))) (f : RIexFiles T)
    (evs : List (RWebEv (RIexBook T) RIexEv)) (i : ℕ) : ∃ g : RIexFiles T,
    ((rIexWeb noEff screen solve).exec f (evs ++ [.opens i])).2 i = some ⟨screen g, none, none⟩ ∧
    g.params = (((Spec.books evs).reverse.filterMap (·.params)).head?).getD f.params ∧
    g.ions = (((Spec.books evs).reverse.filterMap (·.ions)).head?).getD f.ions ∧
    g.cin = (((Spec.books evs).reverse.filterMap (·.cin)).head?).getD f.cin :=
  ⟨iexUploads noEff f (Spec.books evs), c263_newest _ (fun _ _ _ => rfl) f evs i, c182_latest noEff f _⟩

/-- C263. In the carbon application a page that is loaded right after somebody pressed "Use" shows the fitted isotherms of that person. -/
theorem c263_use {T R : Type} (A : RGacApp T R) (f : RGacFiles T) (evs : List (RWebEv (RGacBook T) (RGacEv T))) {i j : ℕ} {s : RGacSess T R}
    {r : R} {k : T} (hs : ((rGacWeb A).exec f evs).2 j = some s) (hfit : s.fit = some (r, k)) :
    ∃ s', ((rGacWeb A).exec f (evs ++ [.acts j .use] ++ [.opens i])).2 i = some s' ∧ s'.k = k ∧ s'.files.k2 = s.k ∧ s'.out = none ∧
      (A.empty k = false → s'.form.wfoul = s.form.wfoul ∧ s'.form.cfoul = s.form.cfoul) ∧
      (A.empty k = true → s'.files.foul = ((rGacWeb A).exec f evs).1.foul) := by
  rw [exec_snoc, exec_snoc]
  simp only [RWeb.step, hs, Function.update_self]
  refine ⟨_, rfl, ?_, rfl, rfl, fun he => ?_, fun he => ?_⟩
  · simp [rGacWeb, RGacApp.start, hfit]
  · simp [rGacWeb, RGacApp.start, hfit, he]
  · simp [rGacWeb, RGacApp.start, hfit, he]

/-- C263. Pressed before anything was fitted, "Use" gives the next page the isotherms of zeros, whoever loads it. -/
theorem c263_use_early {T R : Type} (A : RGacApp T R) (f : RGacFiles T) (evs : List (RWebEv (RGacBook T) (RGacEv T))) {i j : ℕ}
    {s : RGacSess T R} (hs : ((rGacWeb A).exec f evs).2 j = some s) (hfit : s.fit = none) :
    ∃ s', ((rGacWeb A).exec f (evs ++ [.acts j .use] ++ [.opens i])).2 i = some s' ∧ s'.k = A.zeros ∧ s'.files.k2 = s.k := by
  rw [exec_snoc, exec_snoc]
  simp only [RWeb.step, hs, Function.update_self]
  refine ⟨_, rfl, ?_, rfl⟩
  simp [rGacWeb, RGacApp.start, hfit]

/-- C263. "Use" changes what new pages show; the page on which it was pressed stays as it is until it is loaded again. -/
theorem c263_use_own {T R : Type} (A : RGacApp T R) (f : RGacFiles T) (evs : List (RWebEv (RGacBook T) (RGacEv T))) (j : ℕ) :
    ((rGacWeb A).exec f (evs ++ [.acts j .use])).2 j = ((rGacWeb A).exec f evs).2 j := by
  rw [exec_snoc]
  simp only [RWeb.step]
  cases h : ((rGacWeb A).exec f evs).2 j with
  | none => exact h
  | some s => simp [rGacWeb]

/-- C263. A window shows something exactly when its page has been loaded. -/
theorem c263_closed (W : RWeb F B S E) (f : F) (evs : List (RWebEv B E)) (i : ℕ) :
    ((W.exec f evs).2 i).isSome = true ↔ RWebEv.opens i ∈ evs := by
  induction evs using List.reverseRecOn with
  | nil => simp [RWeb.exec]
  | append_singleton l e ih =>
    rw [exec_snoc, List.mem_append, ← ih]
    cases e with
    | opens j =>
      by_cases hj : i = j
      · subst hj; simp [RWeb.step]
      · simp [RWeb.step, Function.update_of_ne hj, hj]
    | upload j b => simp [RWeb.step]
    | acts j a =>
      simp only [RWeb.step]
      cases h : (W.exec f l).2 j with
      | none => simp
      | some x =>
        by_cases hj : i = j
        · subst hj; simp [h]
        · simp [Function.update_of_ne hj]

/-- Two windows: the first edits and runs, the second uploads; the first page stays as it is until it is loaded again, and then has the other
workbook. -/
example : ∃ (W : RWeb (RIexFiles ℝ) (RIexBook ℝ) RIexSess RIexEv) (f : RIexFiles ℝ) (b : RIexBook ℝ) (s s' : RIexSess),
    W = rIexWeb 0 (fun f => ⟨c178Form, [], [f.ions], [], false⟩) (fun _ => .ok []) ∧
    (W.exec f [.opens 0, .acts 0 .run]).2 0 = some s ∧ (W.exec f [.opens 0, .acts 0 .run, .opens 1, .upload 1 b, .opens 1]).2 0 = some s ∧
    (W.exec f [.opens 0, .acts 0 .run, .opens 1, .upload 1 b, .opens 1, .opens 0]).2 0 = some s' ∧ s.times = [2] ∧ s'.times = [1] ∧
    s.out = some [] ∧ s'.out = none := by
  refine ⟨_, ⟨[], 2, 0, 0⟩, ⟨none, some 1, none, none⟩, _, _, rfl, rfl, rfl, rfl, ?_, ?_, ?_, rfl⟩
  · simp [rIexWeb, rIexStep]
  · simp [RWeb.step, rIexWeb, rIexRead]
  · simp [rIexWeb, rIexStep, rIexPasses, rNameErrors]

end WTM
