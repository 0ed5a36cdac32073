import Verif.Props.Fouling
import Verif.Props.GacCapacity
import Verif.Props.IexOrder
import Verif.Props.GacRelative
import Verif.Props.RServer
import Verif.Props.Tools
import Verif.Props.GacRunAll

/-!
Further concrete cases of theorems whose modules show their hypotheses only in part: each example applies the theorem it names to
data of the kind the applications are given.
-/

set_option autoImplicit false

namespace WTM

open Set

/-- C41, C43: PFOA in Rhine water loses capacity with time and starts with 78 % of it. -/
example : ∃ rk, foulParams "Rhine" "PFAS" "PFOA" = .ok rk ∧ Antitone (foulMult rk) ∧ foulMult rk 0 = 0.34 + 0.44 ∧
    foulAt rk 100 10 0 ≠ 1 ∧ foulAt rk 100 10 70 ≤ foulAt rk 100 10 30 ∧ 1 / 1000 ≤ foulAt rk 100 10 70 := by
  obtain ⟨rk, h⟩ := (foulParams_isOk "Rhine" "PFAS" "PFOA").2 ⟨by simp [foulWater], Or.inl rfl⟩
  have hb : foulB "PFAS" "PFOA" = .ok (0.34, 0.44) := rfl
  have hu := c41_used h (T := 100) (by norm_num) 10
  refine ⟨rk, h, c41_antitone h, c43_start h hb, fun e => ?_, hu.2 30 70 (by norm_num) (by norm_num) (by norm_num),
    hu.1 70 (by norm_num) (by norm_num)⟩
  have := (c43_full h hb (T := 100) (by norm_num) 10).1 e
  norm_num at this

/-- C41: a compound that is not in the list is given the average, and `fouling_k` of a listed class falls. -/
example : (∃ rk, foulParams "Wausau" "PFAS" "PFX" = .ok rk) ∧
    ∃ x y, foulingK 100 10 "Rhine" "phenols" = .ok x ∧ foulingK 100 5000 "Rhine" "phenols" = .ok y ∧ y ≤ x ∧ 100 / 1000 ≤ y := by
  refine ⟨?_, ?_⟩
  · obtain ⟨rk, h, -⟩ := c41_unlisted (water := "Wausau") (comp := "PFX") rfl rfl
    exact ⟨rk, h⟩
  · obtain ⟨x, hx⟩ : ∃ x, foulingK 100 10 "Rhine" "phenols" = .ok x := ⟨_, rfl⟩
    obtain ⟨y, hy⟩ : ∃ y, foulingK 100 5000 "Rhine" "phenols" = .ok y := ⟨_, rfl⟩
    have := c41_fouling_k (k := 100) (by norm_num) (show (10:ℝ) ≤ 5000 by norm_num) hx hy
    exact ⟨x, y, hx, hy, this.2, this.1⟩

/-- C43, C128: phenols start with the whole capacity, in any water. -/
example : ∃ rk, foulParams "Karlsruhe" "phenols" "x" = .ok rk ∧ foulAt rk 365 100 0 = 1 := by
  obtain ⟨rk, h⟩ : ∃ rk, foulParams "Karlsruhe" "phenols" "x" = .ok rk := ⟨_, rfl⟩
  exact ⟨rk, h, (c43_classes (by decide) h (by norm_num) 100).2 (by simp [Spec.fullClasses])⟩

/-- A service life of 2500 days with the effluent reaching the influent on the last of them. -/
noncomputable def lateCap : CapIn where
  rows := [(0, 10, 0), (1000, 10, 2), (2500, 10, 10)]
  duration := 2500
  flrt := 100
  flowMult := 1 / 1000
  tMult := 1440
  wt := 10
  massMul := 1
  xn := 0.45

/-- C124: breakthrough after day 2001 is read at the last sample before day 2000. -/
example : (calcCapacity lateCap none none).brk = 1000 := by
  have hd : Spec.CapData lateCap := by
    constructor
    · simp [lateCap]; norm_num
    · exact ⟨_, _, _, rfl, rfl⟩
    · refine ⟨by simp [lateCap], fun r hr => ?_⟩
      simp only [lateCap, List.mem_cons, List.not_mem_nil, or_false] at hr
      rcases hr with rfl | rfl | rfl <;> norm_num [lateCap]
    · intro r hr
      simp only [lateCap, List.mem_cons, List.not_mem_nil, or_false] at hr
      rcases hr with rfl | rfl | rfl <;> norm_num
  have h2 : Spec.TwoSamples lateCap :=
    ⟨(1000, 10, 2), by simp [lateCap], (2500, 10, 10), by simp [lateCap], by norm_num, by norm_num, by norm_num⟩
  have hf : Spec.FirstDay lateCap 2500 := by
    constructor
    · norm_num [lateCap]
    · simp only [CapIn.infl, CapIn.effl, lateCap, List.map, interpExtrap]; norm_num
    · intro k hk
      have hk' : (k:ℝ) < 2500 := by exact_mod_cast hk
      have hk0 : (0:ℝ) ≤ k := Nat.cast_nonneg k
      simp only [CapIn.infl, CapIn.effl, lateCap, List.map, interpExtrap]
      split_ifs <;> norm_num <;> linarith
  obtain ⟨h1, h3, h4⟩ := c124_late (fit := none) (reg := none) hd h2 hf (by norm_num)
  have h5 := h4 (1000, 10, 2) (by simp [lateCap]) (by norm_num)
  simp only [lateCap, List.map, List.mem_cons, List.not_mem_nil, or_false] at h3 h1 h5 ⊢
  rcases h3 with h | h | h
  · rw [h] at h5; norm_num at h5
  · exact h
  · rw [h] at h1; norm_num at h1

/-- C233: an absent third ion does not change the rates of the other two. -/
example (m : ColModel) (B : Fin 2 → Fin 2 → ℝ) (A : Fin 2 → Fin 2 → ℝ) : ∃ (P : ColParams 1 2 1) (cin : Fin 3 → ℝ) (u : ColState 1 2 1),
    cin 1 = 2 ∧ P.K 2 = 7 ∧ P.Br = B ∧ P.Az = A ∧ ∀ a i w, m.rhs P 1 cin u a (Fin.castSucc i) w =
      m.rhs (Spec.pick Fin.castSucc P) 1 (cin ∘ Fin.castSucc) (Spec.pickState (Fin.castSucc : Fin 2 → Fin 3) u) a i w := by
  have hoff : ∀ j, j ∉ range (Fin.castSucc : Fin 2 → Fin 3) → j = 2 := fun j hj => castSucc_off hj
  refine ⟨⟨1 / 2, 1, 1 / 2, 1, 5, 0, fun _ => 1, fun _ => 1, fun _ => 1, ![1, 3, 7], ![1, 1, 1], A, B, fun _ => 1⟩, ![1, 2, 0],
    fun _ i _ => ![1, 4, 0] i, rfl, rfl, rfl, rfl, ?_⟩
  refine (c233_column m (e := Fin.castSucc) ⟨Fin.castSucc_injective 2, rfl⟩ _ 1 (fun j hj => ?_) fun k w => Or.inl ?_).1
  · rw [hoff j hj]; exact ⟨rfl, fun _ _ => rfl⟩
  · rintro ⟨j, hj⟩; fin_cases j <;> simp at hj

/-- C228: a compound of four times the molar mass and a quarter of the molar influent, at the same capacity by mass. -/
example (G : GacCol) : let c : GacComp := ⟨100, 1 / 2, 131, 90, 4, 0, 0, 0⟩
    let c' : GacComp := ⟨100, 1 / 2, 524, 90, 1, 0, 0, 0⟩
    tconvOf G (fun _ : Fin 1 => c') = tconvOf G (fun _ : Fin 1 => c) := by
  intro c c'
  refine (c228_single (r := 0) (z := 0) (G := G) (c := c) (c' := c') ⟨rfl, rfl, rfl, rfl, rfl⟩ (by norm_num [c]) (by norm_num [c'])
    (by norm_num [c]) (by norm_num [c']) ?_ (fun _ => 0) (fun _ _ => 0) (fun _ _ => 0)).2
  norm_num [Spec.massConc, c, c']

/-- C263: a window of the ion exchange application is not disturbed by another window that runs the model and is reloaded. -/
example (f : RIexFiles ℝ) (screen : RIexFiles ℝ → RIexIn) (solve : RIexIn → Except PyErr (List (List ℝ))) :
    ((rIexWeb 0 screen solve).exec f [.opens 0, .opens 1, .acts 1 .run, .opens 1]).2 0 =
      ((rIexWeb 0 screen solve).exec f [.opens 0]).2 0 := by
  refine (c263_partial (rIexWeb 0 screen solve) f [.opens 0, .opens 1, .acts 1 .run, .opens 1] 0 fun e he hw => ?_).trans ?_
  · simp only [List.mem_cons, List.not_mem_nil, or_false] at he
    rcases he with rfl | rfl | rfl | rfl
    · exact absurd rfl hw
    · trivial
    · exact fun _ _ => rfl
    · trivial
  · simp [Spec.window]

/-- C60: the day reported for PFOA in the frame that reaches 10 ng/L on day 10 is the one before the first day over its limit. -/
example : ∃ t, replacementInterval (demoFrame 10) none = .ok t ∧ ∀ r, ("PFOA", r) ∈ t → ∃ mcl, Spec.limit "PFOA" = some mcl ∧
    (r.predicted = none ↔ ∀ j, Spec.DayOf (demoFrame 10) j → (demoFrame 10).daily "PFOA" j ≤ mcl) := by
  obtain ⟨t, h⟩ := c62_processed (f := demoFrame 10) (by simp [demoFrame]) (by simp [demoFrame, EffTable.days]; norm_num) (by simp [demoFrame])
  refine ⟨t, h, fun r hr => ?_⟩
  obtain ⟨mcl, h1, -, h2⟩ := c60_compound (demoFrame_wf 10) h hr (by simp [demoFrame])
  exact ⟨mcl, h1, h2⟩

/-- C51: a fit of the demonstration column runs, restores the column and gives the same again. -/
example : ∃ out o', runKfit demoSim (demoObj true) "A" = (.ok out, o') ∧ Spec.Clean o' ∧ (runKfit demoSim o' "A").1 = .ok out := by
  obtain ⟨out, o', h⟩ : ∃ out o', runKfit demoSim (demoObj true) "A" = (.ok out, o') := by
    obtain ⟨out, h⟩ := runKfit_returns (S := demoSim) (fun _ _ => ⟨_, rfl⟩) (o := demoObj true) (c := "A")
      (by intro h; cases h)
    exact ⟨out, _, Prod.ext h rfl⟩
  exact ⟨out, o', h, c51_clean h, c51_again (demo_clean true) h⟩

end WTM
