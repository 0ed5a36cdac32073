import Mathlib.Tactic
import Mathlib.Analysis.Calculus.Deriv.MeanValue
import Verif.Props.GacJac
import Verif.Props.GacRunAll
import Verif.Props.DsFit
import Verif.Props.GacInput
import Verif.Model.Analyze

/-! C191-C195: Jacobian by differences, fits of all compounds at once, and the older readers. -/
set_option autoImplicit false
namespace WTM
noncomputable section
open Filter Topology

/-! ### C191 -/

/-- C191. For an affine right-hand side the result is its matrix, whatever the point and the step. -/
theorem c191_affine {ι : Type} [Fintype ι] [DecidableEq ι] {ff : (ι → ℝ) → ι → ℝ} {A : ι → ι → ℝ} {b : ι → ℝ}
    (hf : ∀ u i, ff u i = ∑ j, A i j * u j + b i) (u0 : ι → ℝ) {hh : ℝ} (h0 : hh ≠ 0) : calcJac ff u0 hh = A := by
  funext i j
  unfold calcJac
  rw [hf, hf]
  have : ∀ k, A i k * Function.update u0 j (u0 j + hh) k = A i k * u0 k + (if k = j then A i j * hh else 0) := by
    intro k
    by_cases hk : k = j
    · subst hk; simp; ring
    · simp [hk]
  simp only [this, Finset.sum_add_distrib, Finset.sum_ite_eq', Finset.mem_univ, if_true]
  rw [show ∑ k, A i k * u0 k + A i j * hh + b i - (∑ k, A i k * u0 k + b i) = A i j * hh by ring]
  exact mul_div_cancel_right₀ _ h0

/-- C191. Entry (i, j) tends to the derivative of rate i by unknown j as the step goes to zero. -/
theorem c191_limit {ι : Type} [DecidableEq ι] {ff : (ι → ℝ) → ι → ℝ} {u0 : ι → ℝ} {i j : ι} {d : ℝ}
    (hd : HasDerivAt (fun t => ff (Function.update u0 j t) i) d (u0 j)) :
    Tendsto (fun hh => calcJac ff u0 hh i j) (𝓝[≠] 0) (𝓝 d) := by
  have h := hasDerivAt_iff_tendsto_slope_zero.1 hd
  refine h.congr fun t => ?_
  rw [Function.update_eq_self]
  unfold calcJac
  rw [smul_eq_mul, div_eq_inv_mul]

/-- C191. And is off by at most the step times the Lipschitz constant of that derivative. -/
theorem c191_bound {ι : Type} [DecidableEq ι] {ff : (ι → ℝ) → ι → ℝ} {u0 : ι → ℝ} {i j : ι} {d : ℝ → ℝ} {M hh : ℝ}
    (h0 : 0 < hh) (hM : 0 ≤ M)
    (hd : ∀ t ∈ Set.Icc (u0 j) (u0 j + hh), HasDerivAt (fun t => ff (Function.update u0 j t) i) (d t) t)
    (hL : ∀ t ∈ Set.Icc (u0 j) (u0 j + hh), |d t - d (u0 j)| ≤ M * (t - u0 j)) :
    |calcJac ff u0 hh i j - d (u0 j)| ≤ M * hh := by
  obtain ⟨s, hs, he⟩ := exists_hasDerivAt_eq_slope (fun t => ff (Function.update u0 j t) i) d
    (show u0 j < u0 j + hh by linarith) (fun t ht => (hd t ht).continuousAt.continuousWithinAt)
    (fun t ht => hd t ⟨ht.1.le, ht.2.le⟩)
  have hs' : s ∈ Set.Icc (u0 j) (u0 j + hh) := ⟨hs.1.le, hs.2.le⟩
  have e : calcJac ff u0 hh i j = d s := by
    rw [he]
    unfold calcJac
    simp only [Function.update_eq_self, add_sub_cancel_left]
  rw [e]
  refine (hL s hs').trans ?_
  have := hs'.2
  nlinarith

/-- C191. For the carbon column: zero wherever the pattern of `spar_Jac` is, for every state and every step. -/
theorem c191_pattern {n r z : ℕ} (D : GacDim n r z) (cinfl foul fac : Fin n → ℝ)
    (u0 : Fin n × Fin (r + 2) × Fin (z + 1) → ℝ) (hh : ℝ) {i j : Fin n} {a b : Fin (r + 2)} {w v : Fin (z + 1)}
    (h0 : sparJac (r + 1) (z + 1) (gacIdx i a w) (gacIdx j b v) = 0) :
    calcJac (fun u p => gacRhs D cinfl foul fac (fun i a w => u (i, a, w)) p.1 p.2.1 p.2.2) u0 hh (i, a, w) (j, b, v) = 0 := by
  unfold calcJac
  beta_reduce
  rw [c50_safe D cinfl foul fac h0 (y := fun i a w => Function.update u0 (j, b, v) (u0 (j, b, v) + hh) (i, a, w))
    (y' := fun i a w => u0 (i, a, w))]
  · simp
  · intro j' b' v' hne
    refine Function.update_of_ne ?_ _ _
    intro h
    simp only [Prod.mk.injEq] at h
    exact hne h

/-- The sign and the transposition matter: rate 0 depends on unknown 1 only. -/
example : calcJac (fun u : Fin 2 → ℝ => fun i => if i = 0 then 3 * u 1 else 0) (fun _ => 1) (1 / 2) 0 1 = 3 ∧
    calcJac (fun u : Fin 2 → ℝ => fun i => if i = 0 then 3 * u 1 else 0) (fun _ => 1) (1 / 2) 1 0 = 0 := by
  constructor
  · simp [calcJac]; norm_num
  · simp [calcJac]

/-- A square is not affine: the step shows, and goes away. -/
example : calcJac (fun u : Fin 1 → ℝ => fun i => u i ^ 2) (fun _ => 1) (1 / 2) 0 0 = 2 + 1 / 2 := by
  simp [calcJac]; norm_num

/-! ### C192 -/

variable {S : Sim} {inp : DsIn} {o o' : GacObj} {c : String} {thru : Bool} {chunks : List (List String)}
  {draw : List (ℝ × ℝ × ℝ) → Except PyErr Unit}

/-- Every compound fitted on the object as it is. -/
def Spec.freshFits (S : Sim) (o : GacObj) (l : List String) : Except PyErr (List (String × KfitOut)) :=
  l.mapM fun c => (runKfit S o c).1.map fun out => (c, out)

theorem freshFits_cons (c : String) (l : List String) : Spec.freshFits S o (c :: l) =
    match (runKfit S o c).1 with
    | .error e => .error e
    | .ok out => (Spec.freshFits S o l).map ((c, out) :: ·) := by
  unfold Spec.freshFits
  rw [List.mapM_cons]
  rcases (runKfit S o c).1 with e | out
  · rfl
  · show ((List.mapM (fun c => (runKfit S o c).1.map fun out => (c, out)) l) >>= fun r => pure ((c, out) :: r)) = _
    rcases List.mapM (fun c => (runKfit S o c).1.map fun out => (c, out)) l with e | r <;> rfl

theorem chunkFits_fresh : ∀ (l : List String) (p : GacObj), Spec.Clean p →
    (∀ c, (runKfit S p c).1 = (runKfit S o c).1) → chunkFits S l p = Spec.freshFits S o l
  | [], p, _, _ => rfl
  | c :: l, p, hc, h => by
    rw [freshFits_cons, chunkFits, ← h c]
    rcases hr : runKfit S p c with ⟨e | out, p'⟩
    · rfl
    · have hm : runMany S [c] p = some p' := by simp only [runMany, hr]
      obtain ⟨-, h1, h2⟩ := c51_sequence hc hm
      simp only
      rw [chunkFits_fresh l p' h1 fun d => (h2 d).trans (h d)]

theorem freshFits_append (l m : List String) : Spec.freshFits S o (l ++ m) =
    match Spec.freshFits S o l with
    | .error e => .error e
    | .ok rs => (Spec.freshFits S o m).map (rs ++ ·) := by
  induction l with
  | nil =>
    show Spec.freshFits S o m = (Spec.freshFits S o m).map fun x => [] ++ x
    rcases Spec.freshFits S o m with e | r <;> rfl
  | cons c l ih =>
    rw [List.cons_append, freshFits_cons, freshFits_cons, ih]
    rcases (runKfit S o c).1 with e | out
    · rfl
    · rcases Spec.freshFits S o l with e | rs
      · rfl
      · rcases Spec.freshFits S o m with e | rs' <;> rfl

/-- C192. However the pool shares out the compounds, the results are those of each compound on the object as it is. -/
theorem c192_chunks (hc : Spec.Clean o) : poolFits S o chunks = Spec.freshFits S o chunks.flatten := by
  induction chunks with
  | nil => rfl
  | cons ch rest ih =>
    rw [poolFits, chunkFits_fresh ch o hc fun _ => rfl, ih, List.flatten_cons, freshFits_append]
    rcases Spec.freshFits S o ch with e | rs <;> rfl

/-- What a single-compound run returns as K and 1/n. -/
theorem runKfit_values {out : KfitOut} (h : runKfit S o c = (.ok out, o')) :
    (o.optimize = true ∧ ¬ oneTrial o ∧ out.k = 1 ∧ out.xn = o.xnRange.getLastD 1) ∨
    (¬ (o.optimize = true ∧ ¬ oneTrial o) ∧ o.kInputList = true ∧ oneTrial o ∧ out.k = 1 ∧ out.xn = 1) ∨
    (¬ (o.optimize = true ∧ ¬ oneTrial o) ∧ ¬ (o.kInputList = true ∧ oneTrial o) ∧ out.k = (o.core.kData c).K ∧
      out.xn = (o.core.kData c).xn) := by
  obtain ⟨f1, f2, f3, f4⟩ := kfitFlag_rest (toSingle o c)
  obtain ⟨-, -, -, f5, f6, f7, -, f8⟩ := f1
  have f5 : (kfitFlag (toSingle o c)).testRange = o.testRange := f5
  have f6 : (kfitFlag (toSingle o c)).xnRange = o.xnRange := f6
  have f7 : (kfitFlag (toSingle o c)).kInputList = o.kInputList := f7
  have f2 : (kfitFlag (toSingle o c)).core = (toSingle o c).core := f2
  have hone : oneTrial (kfitFlag (toSingle o c)) ↔ oneTrial o := by unfold oneTrial; rw [f5, f6]
  have hopt : (kfitFlag (toSingle o c)).optimize = true ↔ o.optimize = true ∧ ¬ oneTrial o := by
    rw [f4]
    by_cases ho : oneTrial o
    · rw [if_pos (show oneTrial (toSingle o c) from ho)]; simp [ho]
    · rw [if_neg (show ¬ oneTrial (toSingle o c) from ho)]; simp only [ho, not_false_eq_true, and_true]; rfl
  unfold runKfit at h
  split at h
  · simp at h
  · rename_i tab htab
    generalize hq : kfitFlag (toSingle o c) = q at *
    unfold kfitBody at h
    split at h
    · rename_i h1
      obtain ⟨h2, h3⟩ := hopt.1 h1
      left
      unfold kfitOpt at h
      split at h
      · simp at h
      · simp only [Prod.mk.injEq, Except.ok.injEq] at h
        obtain ⟨rfl, -⟩ := h
        exact ⟨h2, h3, rfl, by simp only [f6]⟩
    · rename_i h1
      right
      have h1' : ¬ (o.optimize = true ∧ ¬ oneTrial o) := fun hh => h1 (hopt.2 hh)
      split at h
      · rename_i h2
        left
        unfold kfitList at h
        simp only at h
        split at h
        · simp at h
        · simp only [Prod.mk.injEq, Except.ok.injEq] at h
          obtain ⟨rfl, -⟩ := h
          exact ⟨h1', f7 ▸ h2.1, hone.1 h2.2, rfl, rfl⟩
      · rename_i h2
        right
        unfold kfitPlain at h
        split at h
        · simp at h
        · simp only [Prod.mk.injEq, Except.ok.injEq] at h
          obtain ⟨rfl, -⟩ := h
          refine ⟨h1', fun hh => h2 ⟨f7.trans hh.1, hone.2 hh.2⟩, ?_, ?_⟩
          · simp only [f2]; rfl
          · simp only [f2]; rfl

theorem freshFits_mem : ∀ {l : List String} {rs : List (String × KfitOut)}, Spec.freshFits S o l = .ok rs →
    rs.map (·.1) = l ∧ ∀ r ∈ rs, (runKfit S o r.1).1 = .ok r.2
  | [], rs, h => by
    simp only [Spec.freshFits, List.mapM_nil] at h
    obtain rfl : [] = rs := Except.ok.inj h
    simp
  | c :: l, rs, h => by
    rw [freshFits_cons] at h
    rcases hr : (runKfit S o c).1 with e | out
    · rw [hr] at h; simp at h
    · rw [hr] at h
      simp only at h
      rcases hl : Spec.freshFits S o l with e | rs'
      · rw [hl] at h; simp [Except.map] at h
      · rw [hl] at h
        obtain rfl : (c, out) :: rs' = rs := Except.ok.inj h
        obtain ⟨h1, h2⟩ := freshFits_mem hl
        refine ⟨by simp [h1], fun r hr' => ?_⟩
        rcases List.mem_cons.1 hr' with rfl | hr'
        · exact hr
        · exact h2 r hr'

theorem freshFits_returns : ∀ {l : List String}, (∀ c ∈ l, ∃ out, (runKfit S o c).1 = .ok out) →
    ∃ rs, Spec.freshFits S o l = .ok rs
  | [], _ => ⟨[], rfl⟩
  | c :: l, h => by
    obtain ⟨out, ho⟩ := h c List.mem_cons_self
    obtain ⟨rs, hr⟩ := freshFits_returns fun d hd => h d (List.mem_cons_of_mem _ hd)
    exact ⟨(c, out) :: rs, by rw [freshFits_cons, ho, hr]; rfl⟩

/-- C192, in full: on a column with data whose simulations and plots work, `analyze_all` returns, and for every compound
what it stores as K and 1/n has an error no larger than any other pair of the ranges asked for. -/
def C192 : Prop := ∀ (S : Sim) (thru : Bool) (draw : List (ℝ × ℝ × ℝ) → Except PyErr Unit) (chunks : List (List String))
  (o : GacObj), Spec.Clean o → chunks.flatten = o.core.compounds → (∀ a d, ∃ r, (S a d).1 = .ok r) →
  (∀ c ∈ o.core.compounds, o.bup.data.eff c ≠ none) → (∀ l, draw l = .ok ()) → o.optimize = true →
  2 ≤ o.testRange.length → 2 ≤ o.xnRange.length →
  ∃ o', analyzeAll S thru draw chunks o = (.ok (), o') ∧ ∀ c ∈ o.core.compounds, ∀ i ∈ o.testRange, ∀ x ∈ o.xnRange,
    ∀ tab e e', o.bup.data.eff c = some tab →
      Spec.IsTrialError S o c tab (o'.core.kData c).K (o'.core.kData c).xn e →
      Spec.IsTrialError S o c tab (kMultOf o c x * i) x e' → e ≤ e'

/-- C192. With ranges to search, `analyze_all` never returns: whatever the errors of the search, it stores 1 as K and the
last exponent tried as 1/n for the first compound, and raises; the other compounds keep what they had. -/
theorem c192_optimising (hc : Spec.Clean o) (hopt : o.optimize = true) (hone : ¬ oneTrial o) {rest : List String}
    (hl : chunks.flatten = c :: rest) (hf : ∀ d ∈ chunks.flatten, ∃ out, (runKfit S o d).1 = .ok out) :
    ∃ e o', analyzeAll S thru draw chunks o = (.error e, o') ∧
      (o.testRange.length < 2 ∨ o.xnRange.length < 2 → e = .typeError) ∧
      (2 ≤ o.testRange.length → 2 ≤ o.xnRange.length → (∀ l, draw l = .ok ()) → e = .attributeError) ∧
      (thru = true → o'.core.kData c = ⟨1, o.xnRange.getLastD 1, (o.core.kData c).q, (o.core.kData c).brk,
        (o.core.kData c).aveC⟩) ∧
      (∀ d, d ≠ c → o'.core.kData d = o.core.kData d) ∧ (thru = false → o' = o) := by
  obtain ⟨rs, hr⟩ := freshFits_returns hf
  obtain ⟨h1, h2⟩ := freshFits_mem hr
  unfold analyzeAll
  rw [c192_chunks hc, hr]
  simp only
  rw [hl] at h1
  rcases rs with _ | ⟨⟨d, out⟩, rs⟩
  · simp at h1
  · simp only [List.map_cons, List.cons.injEq] at h1
    obtain ⟨rfl, -⟩ := h1
    have ho := h2 _ List.mem_cons_self
    have hv := runKfit_values (o' := (runKfit S o d).2) (Prod.ext ho rfl)
    obtain ⟨-, -, hk, hx⟩ : o.optimize = true ∧ ¬ oneTrial o ∧ out.k = 1 ∧ out.xn = o.xnRange.getLastD 1 := by
      rcases hv with h | ⟨h, -⟩ | ⟨h, -⟩
      · exact h
      · exact absurd ⟨hopt, hone⟩ h
      · exact absurd ⟨hopt, hone⟩ h
    have hstore : (thru = true → (storeFit thru o d out.k out.xn).core.kData d = ⟨1, o.xnRange.getLastD 1,
          (o.core.kData d).q, (o.core.kData d).brk, (o.core.kData d).aveC⟩) ∧
        (∀ d', d' ≠ d → (storeFit thru o d out.k out.xn).core.kData d' = o.core.kData d') ∧
        (thru = false → storeFit thru o d out.k out.xn = o) := by
      refine ⟨?_, ?_, ?_⟩
      · rintro rfl
        simp only [storeFit, if_true, KTab.set, hk, hx]
      · intro d' hd'
        cases thru
        · rfl
        · simp only [storeFit, if_true, KTab.set, if_neg hd']
      · rintro rfl; rfl
    rw [analyzeLoop]
    simp only [hopt, if_true]
    rcases hp : plotErrors draw o out with e | u
    · simp only
      refine ⟨e, _, rfl, ?_, ?_, hstore⟩
      · intro hh
        unfold plotErrors at hp
        rw [if_pos hh] at hp
        exact (Except.error.inj hp).symm
      · intro h3 h4 hd
        unfold plotErrors at hp
        rw [if_neg (by omega), hd] at hp
        simp at hp
    · simp only [true_and, hone, not_false_eq_true, if_true]
      refine ⟨_, _, rfl, ?_, fun _ _ _ => rfl, hstore⟩
      intro hh
      unfold plotErrors at hp
      rw [if_pos hh] at hp
      simp at hp

/-- C192, when it returns: it was not searching. A table of constants given by the caller is left as it was; if the
constants were given through the two ranges, K and 1/n of every compound become 1, not those given. -/
theorem c192_partial (hc : Spec.Clean o) (hne : chunks.flatten ≠ [])
    (h : analyzeAll S thru draw chunks o = (.ok (), o')) : o.optimize = false ∧
    (¬ (o.kInputList = true ∧ oneTrial o) → o' = o) ∧
    (o.kInputList = true → oneTrial o → ∀ d, o'.core.kData d =
      if thru = true ∧ d ∈ chunks.flatten then ⟨1, 1, (o.core.kData d).q, (o.core.kData d).brk, (o.core.kData d).aveC⟩
      else o.core.kData d) := by
  unfold analyzeAll at h
  rw [c192_chunks hc] at h
  rcases hr : Spec.freshFits S o chunks.flatten with e | rs
  · rw [hr] at h; simp at h
  rw [hr] at h
  simp only at h
  obtain ⟨h1, h2⟩ := freshFits_mem hr
  generalize chunks.flatten = l at *
  have hopt : o.optimize = false := by
    by_contra hopt
    have hopt : o.optimize = true := by simpa using hopt
    rcases rs with _ | ⟨⟨d, out⟩, rs⟩
    · exact hne (by simpa using h1.symm)
    · rw [analyzeLoop] at h
      simp only [hopt, if_true] at h
      rcases hp : plotErrors draw o out with e | u
      · rw [hp] at h; simp at h
      · rw [hp] at h
        simp only [true_and] at h
        split at h
        · simp at h
        · rename_i hone
          have hone : oneTrial o := not_not.1 hone
          unfold plotErrors at hp
          rw [if_pos (Or.inl (by rw [hone.1]; norm_num))] at hp
          simp at hp
  refine ⟨hopt, ?_, ?_⟩
  · intro hplain
    have key : ∀ (rs : List (String × KfitOut)), (∀ r ∈ rs, (runKfit S o r.1).1 = .ok r.2) →
        analyzeLoop thru draw rs o = (.ok (), o') → o' = o := by
      intro rs
      induction rs with
      | nil => intro _ h; exact ((Prod.mk.inj h).2).symm
      | cons r rs ih =>
        intro hm h
        obtain ⟨d, out⟩ := r
        have hv := runKfit_values (o' := (runKfit S o d).2) (Prod.ext (hm _ List.mem_cons_self) rfl)
        obtain ⟨hk, hx⟩ : out.k = (o.core.kData d).K ∧ out.xn = (o.core.kData d).xn := by
          rcases hv with ⟨h, -⟩ | ⟨-, h, h', -⟩ | ⟨-, -, h⟩
          · rw [hopt] at h; cases h
          · exact absurd ⟨h, h'⟩ hplain
          · exact h
        have hs : storeFit thru o d out.k out.xn = o := by
          cases thru
          · rfl
          · simp only [storeFit, if_true, hk, hx, KTab.set_self]
        rw [analyzeLoop] at h
        simp only [hopt, hs] at h
        simp only [Bool.false_eq_true, false_and, if_false] at h
        exact ih (fun r hr => hm r (List.mem_cons_of_mem _ hr)) h
    exact key rs h2 h
  · intro hlist hone
    have key : ∀ (rs : List (String × KfitOut)) (p : GacObj), (∀ r ∈ rs, (runKfit S o r.1).1 = .ok r.2) →
        p.optimize = false → analyzeLoop thru draw rs p = (.ok (), o') → ∀ d, o'.core.kData d =
          if thru = true ∧ d ∈ rs.map (·.1) then ⟨1, 1, (p.core.kData d).q, (p.core.kData d).brk, (p.core.kData d).aveC⟩
          else p.core.kData d := by
      intro rs
      induction rs with
      | nil =>
        intro p _ _ h d
        obtain rfl : p = o' := (Prod.mk.inj h).2
        simp
      | cons r rs ih =>
        intro p hm hp h d
        obtain ⟨b, out⟩ := r
        have hv := runKfit_values (o' := (runKfit S o b).2) (Prod.ext (hm _ List.mem_cons_self) rfl)
        obtain ⟨hk, hx⟩ : out.k = 1 ∧ out.xn = 1 := by
          rcases hv with ⟨h, -⟩ | ⟨-, -, -, h⟩ | ⟨-, h, -⟩
          · rw [hopt] at h; cases h
          · exact h
          · exact absurd ⟨hlist, hone⟩ h
        rw [analyzeLoop] at h
        simp only [hp, hk, hx] at h
        simp only [Bool.false_eq_true, false_and, if_false] at h
        have hp' : (storeFit thru p b 1 1).optimize = false := by
          unfold storeFit; split <;> exact hp
        rw [ih _ (fun r hr => hm r (List.mem_cons_of_mem _ hr)) hp' h d]
        cases thru
        · simp [storeFit]
        · simp only [true_and, storeFit, if_true, KTab.set, List.map_cons, List.mem_cons]
          by_cases hdb : d = b
          · subst hdb; simp
          · simp only [hdb, false_or, if_false]
    have := key rs o h2 hopt h
    rw [h1] at this
    exact this

/-- C192. It does return when it is not searching and every fit does. -/
theorem c192_returns (hc : Spec.Clean o) (hopt : o.optimize = false)
    (hf : ∀ d ∈ chunks.flatten, ∃ out, (runKfit S o d).1 = .ok out) :
    ∃ o', analyzeAll S thru draw chunks o = (.ok (), o') := by
  obtain ⟨rs, hr⟩ := freshFits_returns hf
  unfold analyzeAll
  rw [c192_chunks hc, hr]
  simp only
  have key : ∀ (rs : List (String × KfitOut)) (p : GacObj), p.optimize = false →
      ∃ o', analyzeLoop thru draw rs p = (.ok (), o') := by
    intro rs
    induction rs with
    | nil => exact fun p _ => ⟨p, rfl⟩
    | cons r rs ih =>
      intro p hp
      rw [analyzeLoop]
      simp only [hp]
      simp only [Bool.false_eq_true, false_and, if_false]
      exact ih _ (by unfold storeFit; split <;> exact hp)
  exact key rs o hopt

/-- C192. A fit that raises makes the call raise before anything is stored. -/
theorem c192_raise (hc : Spec.Clean o) {e : PyErr} (hd : c ∈ chunks.flatten) (he : (runKfit S o c).1 = .error e) :
    ∃ e', analyzeAll S thru draw chunks o = (.error e', o) := by
  unfold analyzeAll
  rw [c192_chunks hc]
  rcases hr : Spec.freshFits S o chunks.flatten with e' | rs
  · exact ⟨e', rfl⟩
  · exfalso
    obtain ⟨h1, h2⟩ := freshFits_mem hr
    rw [← h1] at hd
    obtain ⟨r, hr1, rfl⟩ := List.mem_map.1 hd
    rw [h2 r hr1] at he
    cases he

/-- C192. What it stores is not part of the stored copy: the next single-compound run that returns undoes it. -/
theorem c192_undone (hc : Spec.Clean o) {a : Except PyErr Unit} {p : GacObj} {out : KfitOut}
    (h : analyzeAll S thru draw chunks o = (a, o')) (hrun : runKfit S o' c = (.ok out, p)) : p.core = o.core := by
  have hb : o'.bup = o.bup := by
    unfold analyzeAll at h
    split at h
    · rw [← (Prod.mk.inj h).2]
    · have key : ∀ (rs : List (String × KfitOut)) (q : GacObj), analyzeLoop thru draw rs q = (a, o') → o'.bup = q.bup := by
        intro rs
        induction rs with
        | nil => intro q h; rw [← (Prod.mk.inj h).2]
        | cons r rs ih =>
          intro q h
          obtain ⟨d, out⟩ := r
          have hs : (storeFit thru q d out.k out.xn).bup = q.bup := by unfold storeFit; split <;> rfl
          rw [analyzeLoop] at h
          split at h
          · rw [← (Prod.mk.inj h).2, hs]
          · split at h
            · rw [← (Prod.mk.inj h).2, hs]
            · rw [ih _ h, hs]
      exact key _ _ h
  have h3 := (runKfit_ok S o' c).2.2.1
  rw [hrun] at h3
  obtain ⟨h5, -⟩ := h3 ⟨out, rfl⟩
  exact h5.trans (hb.trans hc.1.symm)

theorem c192_false : ¬ C192 := by
  intro h
  have hd : ∀ c ∈ (demoObj true).core.compounds, (demoObj true).bup.data.eff c ≠ none := by
    intro c _ h; cases h
  obtain ⟨o', h1, -⟩ := h demoSim true (fun _ => .ok ()) [["A", "B"]] (demoObj true) (demo_clean true) rfl
    (fun _ _ => ⟨_, rfl⟩) hd (fun _ => rfl) rfl (le_refl 2) (le_refl 2)
  obtain ⟨e, o2, h2, -⟩ := c192_optimising (S := demoSim) (thru := true) (draw := fun _ => .ok ())
    (chunks := [["A", "B"]]) (demo_clean true) rfl (by unfold oneTrial; simp [demoObj]) (c := "A") (rest := ["B"]) rfl
    (fun d hd' => runKfit_returns (fun _ _ => ⟨_, rfl⟩) (by intro h; cases h))
  rw [h1] at h2
  simp at h2

/-- The hypotheses of `c192_partial` can be met, with constants given through the ranges: K = 1 is stored. -/
example : ∃ o', analyzeAll demoSim true (fun _ => .ok ()) [["A"], ["B"]]
    { demoObj true with optimize := false, testRange := [7], xnRange := [1 / 2] } = (.ok (), o') ∧
    (o'.core.kData "A").K = 1 := by
  have hc : Spec.Clean { demoObj true with optimize := false, testRange := [7], xnRange := [1 / 2] } := ⟨rfl, rfl⟩
  obtain ⟨o', h⟩ := c192_returns (S := demoSim) (thru := true) (draw := fun _ => .ok ()) (chunks := [["A"], ["B"]]) hc rfl
    (fun d _ => runKfit_returns (fun _ _ => ⟨_, rfl⟩) (by intro h; cases h))
  refine ⟨o', h, ?_⟩
  rw [(c192_partial hc (by simp) h).2.2 rfl ⟨rfl, rfl⟩ "A", if_pos ⟨rfl, by simp⟩]

/-! ### C193 -/

/-- What the loop over factors keeps: the first factor with the least error. -/
theorem dsLoop_first {obs : ℝ → ℝ} {brk base : ℝ} : ∀ {l : List ℝ} {o o2 : GacObj} {b b2 : DsBest}
    {rows rows2 : List (ℝ × ℝ)}, dsLoop S c obs brk base l o b rows = (.ok (b2, rows2), o2) →
    ∃ new, rows2 = rows ++ new ∧ ((b2 = b ∧ ∀ r ∈ new, b.ssq ≤ r.2) ∨
      ∃ pre f s post curve, new = pre ++ (f, s) :: post ∧ b2 = ⟨s, some (base * f, curve)⟩ ∧ s < b.ssq ∧
        (∀ r ∈ pre, s < r.2) ∧ ∀ r ∈ post, s ≤ r.2)
  | [], o, o2, b, b2, rows, rows2, h => by
    simp only [dsLoop, Prod.mk.injEq, Except.ok.injEq] at h
    obtain ⟨⟨rfl, rfl⟩, -⟩ := h
    exact ⟨[], by simp, Or.inl ⟨rfl, by simp⟩⟩
  | f :: l, o, o2, b, b2, rows, rows2, h => by
    rw [dsLoop] at h
    simp only [runPsdm] at h
    rcases hs : (S (setDs o c (f * base)).core (setDs o c (f * base)).der).1 with e | r
    · rw [hs] at h; simp at h
    · rw [hs] at h
      simp only at h
      obtain ⟨new, h1, h2⟩ := dsLoop_first h
      generalize ssqOf brk (r c) obs = s at *
      refine ⟨(f, s) :: new, by rw [h1]; simp, ?_⟩
      by_cases hlt : s < b.ssq
      · right
        rw [if_pos hlt] at h2
        rcases h2 with ⟨hb, hle⟩ | ⟨pre, f', s', post, curve, hn, hb, hlt', hpre, hpost⟩
        · exact ⟨[], f, s, new, r c, rfl, hb, hlt, by simp, hle⟩
        · refine ⟨(f, s) :: pre, f', s', post, curve, by rw [hn]; rfl, hb, hlt'.trans hlt, ?_, hpost⟩
          intro q hq
          rcases List.mem_cons.1 hq with rfl | hq
          · exact hlt'
          · exact hpre q hq
      · rw [if_neg hlt] at h2
        rcases h2 with ⟨hb, hle⟩ | ⟨pre, f', s', post, curve, hn, hb, hlt', hpre, hpost⟩
        · left
          refine ⟨hb, fun q hq => ?_⟩
          rcases List.mem_cons.1 hq with rfl | hq
          · exact not_lt.1 hlt
          · exact hle q hq
        · right
          refine ⟨(f, s) :: pre, f', s', post, curve, by rw [hn]; rfl, hb, hlt', ?_, hpost⟩
          intro q hq
          rcases List.mem_cons.1 hq with rfl | hq
          · exact hlt'.trans_le (not_lt.1 hlt)
          · exact hpre q hq

theorem firstLeast_split {pre post : List (ℝ × ℝ)} {f s : ℝ} (h1 : ∀ r ∈ pre, s < r.2) (h2 : ∀ r ∈ post, s ≤ r.2) :
    firstLeast (pre ++ (f, s) :: post) = some f := by
  classical
  unfold firstLeast
  rw [List.find?_append, List.find?_eq_none.2, Option.none_or, List.find?_cons_of_pos]
  · rfl
  · rw [decide_eq_true_eq]
    intro r hr
    rcases List.mem_append.1 hr with hr | hr
    · exact (h1 r hr).le
    · rcases List.mem_cons.1 hr with rfl | hr
      · exact le_rfl
      · exact h2 r hr
  · intro r hr hd
    rw [decide_eq_true_eq] at hd
    exact absurd (hd (f, s) (by simp)) (not_le.2 (h1 r hr))

/-- C193. The coefficient printed in the title is the one returned by the fit. -/
theorem c193_title {out : DsOut} (h : dsFit S inp o c = (.ok out, o')) :
    ∃ f, firstLeast out.ssqs = some f ∧ f * out.base = out.ds := by
  unfold dsFit at h
  simp only at h
  split at h
  · simp at h
  · split at h
    · simp at h
    · rename_i tab htab p molVol mw hp
      generalize hb : dsBase (toSingle o c) c molVol (dsCb0 inp mw (toSingle o c) c) = base at h
      rcases hl : dsLoop S c (interpExtrap tab) ((toSingle o c).core.kData c).brk base dsTests (toSingle o c) ⟨1e20, none⟩ []
        with ⟨e | ⟨b, rows⟩, o2⟩
      · rw [hl] at h; simp at h
      · rw [hl] at h
        simp only at h
        obtain ⟨new, h1, h2⟩ := dsLoop_first hl
        rcases h2 with ⟨rfl, -⟩ | ⟨pre, f, s, post, curve, hn, rfl, -, hpre, hpost⟩
        · simp at h
        · simp only [Prod.mk.injEq, Except.ok.injEq] at h
          obtain ⟨rfl, -⟩ := h
          refine ⟨f, ?_, mul_comm _ _⟩
          show firstLeast rows = some f
          rw [h1, hn, List.nil_append]
          exact firstLeast_split hpre hpost

theorem dsLoop_mt {obs : ℝ → ℝ} {brk base : ℝ} (m : MtTab) : ∀ (l : List ℝ) (o : GacObj) (b : DsBest)
    (rows : List (ℝ × ℝ)), (dsLoop S c obs brk base l { o with mtData := m } b rows).1 = (dsLoop S c obs brk base l o b rows).1
  | [], o, b, rows => rfl
  | f :: l, o, b, rows => by
    rw [dsLoop, dsLoop]
    simp only [runPsdm]
    have e1 : (setDs { o with mtData := m } c (f * base)).core = (setDs o c (f * base)).core := rfl
    have e2 : (setDs { o with mtData := m } c (f * base)).der = (setDs o c (f * base)).der := rfl
    rw [e1, e2]
    rcases (S (setDs o c (f * base)).core (setDs o c (f * base)).der).1 with e | r
    · rfl
    · rfl

/-- The result of a fit does not depend on the record of coefficients. -/
theorem dsFit_mt (m : MtTab) : (dsFit S inp { o with mtData := m } c).1 = (dsFit S inp o c).1 := by
  unfold dsFit
  have e : toSingle { o with mtData := m } c = { toSingle o c with mtData := m } := rfl
  simp only [e]
  rcases (toSingle o c).core.data.eff c with _ | tab
  · rfl
  · rcases inp.props c with _ | ⟨molVol, mw⟩
    · rfl
    · simp only
      have hb : dsBase { toSingle o c with mtData := m } c molVol (dsCb0 inp mw { toSingle o c with mtData := m } c) =
        dsBase (toSingle o c) c molVol (dsCb0 inp mw (toSingle o c) c) := rfl
      rw [hb]
      generalize dsBase (toSingle o c) c molVol (dsCb0 inp mw (toSingle o c) c) = base
      have h := dsLoop_mt (S := S) (c := c) (obs := interpExtrap tab) (brk := ((toSingle o c).core.kData c).brk)
        (base := base) m dsTests (toSingle o c) ⟨1e20, none⟩ []
      rcases h1 : dsLoop S c (interpExtrap tab) ((toSingle o c).core.kData c).brk base dsTests
        { toSingle o c with mtData := m } ⟨1e20, none⟩ [] with ⟨e | ⟨b, rows⟩, o2⟩
      · rw [h1] at h
        rcases h2 : dsLoop S c (interpExtrap tab) ((toSingle o c).core.kData c).brk base dsTests (toSingle o c)
          ⟨1e20, none⟩ [] with ⟨e' | ⟨b', rows'⟩, o3⟩
        · rw [h2] at h; simp only at h ⊢; exact congrArg _ (Except.error.inj h)
        · rw [h2] at h; simp at h
      · rw [h1] at h
        rcases h2 : dsLoop S c (interpExtrap tab) ((toSingle o c).core.kData c).brk base dsTests (toSingle o c)
          ⟨1e20, none⟩ [] with ⟨e' | ⟨b', rows'⟩, o3⟩
        · rw [h2] at h; simp at h
        · rw [h2] at h
          simp only [Except.ok.injEq, Prod.mk.injEq] at h
          obtain ⟨rfl, rfl⟩ := h
          simp only
          rcases b.val with _ | ⟨d, curve⟩ <;> rfl

/-- After a fit that returns a clean object is as before, except for that record. -/
theorem dsFit_restored {out : DsOut} (hc : Spec.Clean o) (h : dsFit S inp o c = (.ok out, o')) :
    o' = { o with mtData := o'.mtData } := by
  unfold dsFit at h
  simp only at h
  split at h
  · simp at h
  · split at h
    · simp at h
    · rename_i tab htab p molVol mw hp
      generalize hb : dsBase (toSingle o c) c molVol (dsCb0 inp mw (toSingle o c) c) = base at h
      rcases hl : dsLoop S c (interpExtrap tab) ((toSingle o c).core.kData c).brk base dsTests (toSingle o c) ⟨1e20, none⟩ []
        with ⟨e | ⟨b, rows⟩, o2⟩
      · rw [hl] at h; simp at h
      · rw [hl] at h
        simp only at h
        obtain ⟨⟨r1, r2, r3, r4, r5, r6, r7, r8, r9⟩, -⟩ := dsLoop_ok hl
        split at h
        · simp at h
        · simp only [Prod.mk.injEq, Except.ok.injEq] at h
          obtain ⟨-, rfl⟩ := h
          obtain ⟨hc1, hc2⟩ := hc
          cases o; cases o2
          simp only [toSingle, resetColumn, GacObj.mk.injEq, true_and] at *
          subst r1 r2 r3 r4 r5 r6 r7 r8 r9 hc1 hc2
          simp

/-- Every compound fitted on the object as it is. -/
def Spec.freshDs (S : Sim) (inp : DsIn) (o : GacObj) (l : List String) : Except PyErr (List (String × DsOut)) :=
  l.mapM fun c => (dsFit S inp o c).1.map fun out => (c, out)

theorem freshDs_cons (c : String) (l : List String) : Spec.freshDs S inp o (c :: l) =
    match (dsFit S inp o c).1 with
    | .error e => .error e
    | .ok out => (Spec.freshDs S inp o l).map ((c, out) :: ·) := by
  unfold Spec.freshDs
  rw [List.mapM_cons]
  rcases (dsFit S inp o c).1 with e | out
  · rfl
  · show ((List.mapM (fun c => (dsFit S inp o c).1.map fun out => (c, out)) l) >>= fun r => pure ((c, out) :: r)) = _
    rcases List.mapM (fun c => (dsFit S inp o c).1.map fun out => (c, out)) l with e | r <;> rfl

theorem chunkDs_fresh (hc : Spec.Clean o) : ∀ (l : List String) (p : GacObj), p = { o with mtData := p.mtData } →
    chunkDs S inp l p = Spec.freshDs S inp o l
  | [], p, _ => rfl
  | c :: l, p, h => by
    have h1 : (dsFit S inp p c).1 = (dsFit S inp o c).1 := by rw [h]; exact dsFit_mt _
    rw [freshDs_cons, chunkDs, ← h1]
    have hp : Spec.Clean p := by rw [h]; exact hc
    rcases hr : dsFit S inp p c with ⟨e | out, p'⟩
    · rfl
    · simp only
      have h2 := dsFit_restored hp hr
      rw [chunkDs_fresh hc l p' (by rw [h2, h])]

theorem freshDs_append (l m : List String) : Spec.freshDs S inp o (l ++ m) =
    match Spec.freshDs S inp o l with
    | .error e => .error e
    | .ok rs => (Spec.freshDs S inp o m).map (rs ++ ·) := by
  induction l with
  | nil =>
    show Spec.freshDs S inp o m = (Spec.freshDs S inp o m).map fun x => [] ++ x
    rcases Spec.freshDs S inp o m with e | r <;> rfl
  | cons c l ih =>
    rw [List.cons_append, freshDs_cons, freshDs_cons, ih]
    rcases (dsFit S inp o c).1 with e | out
    · rfl
    · rcases Spec.freshDs S inp o l with e | rs
      · rfl
      · rcases Spec.freshDs S inp o m with e | rs' <;> rfl

/-- C193. However the pool shares out the compounds, the fits are those of each compound on the object as it is. -/
theorem c193_chunks (hc : Spec.Clean o) : poolDs S inp o chunks = Spec.freshDs S inp o chunks.flatten := by
  induction chunks with
  | nil => rfl
  | cons ch rest ih =>
    rw [poolDs, chunkDs_fresh hc ch o rfl, ih, List.flatten_cons, freshDs_append]
    rcases Spec.freshDs S inp o ch with e | rs <;> rfl

theorem freshDs_mem : ∀ {l : List String} {rs : List (String × DsOut)}, Spec.freshDs S inp o l = .ok rs →
    rs.map (·.1) = l ∧ ∀ r ∈ rs, (dsFit S inp o r.1).1 = .ok r.2
  | [], rs, h => by
    simp only [Spec.freshDs, List.mapM_nil] at h
    obtain rfl : [] = rs := Except.ok.inj h
    simp
  | c :: l, rs, h => by
    rw [freshDs_cons] at h
    rcases hr : (dsFit S inp o c).1 with e | out
    · rw [hr] at h; simp at h
    · rw [hr] at h
      simp only at h
      rcases hl : Spec.freshDs S inp o l with e | rs'
      · rw [hl] at h; simp [Except.map] at h
      · rw [hl] at h
        obtain rfl : (c, out) :: rs' = rs := Except.ok.inj h
        obtain ⟨h1, h2⟩ := freshDs_mem hl
        refine ⟨by simp [h1], fun r hr' => ?_⟩
        rcases List.mem_cons.1 hr' with rfl | hr'
        · exact hr
        · exact h2 r hr'

theorem freshDs_returns : ∀ {l : List String}, (∀ c ∈ l, ∃ out, (dsFit S inp o c).1 = .ok out) →
    ∃ rs, Spec.freshDs S inp o l = .ok rs
  | [], _ => ⟨[], rfl⟩
  | c :: l, h => by
    obtain ⟨out, ho⟩ := h c List.mem_cons_self
    obtain ⟨rs, hr⟩ := freshDs_returns fun d hd => h d (List.mem_cons_of_mem _ hd)
    exact ⟨(c, out) :: rs, by rw [freshDs_cons, ho, hr]; rfl⟩

/-- C193, in full: when every fit returns, `analyze_all_ds` returns, and rows `ds` and `base_ds` hold for every compound
the coefficient and the base its fit returned. -/
def C193 : Prop := ∀ (S : Sim) (inp : DsIn) (thru : Bool) (chunks : List (List String)) (o : GacObj), Spec.Clean o →
  chunks.flatten = o.core.compounds → (∀ c ∈ o.core.compounds, ∃ out, (dsFit S inp o c).1 = .ok out) →
  ∃ titles t, analyzeDs S inp thru chunks o = (.ok titles, t) ∧
    ∀ c ∈ o.core.compounds, ∀ out, (dsFit S inp o c).1 = .ok out → t c = (out.ds, out.base)

/-- C193, on an object with the search flag set: it returns, the titles show the coefficients of the fits, and if the
chained assignments reach the table so do the two rows; compounds not analysed, or all of them if the assignments do
not, have their K there. -/
theorem c193_partial (hc : Spec.Clean o) (hopt : o.optimize = true)
    (hf : ∀ d ∈ chunks.flatten, ∃ out, (dsFit S inp o d).1 = .ok out) :
    ∃ titles t, analyzeDs S inp thru chunks o = (.ok titles, t) ∧ titles.map (·.1) = chunks.flatten ∧
      (∀ p ∈ titles, ∃ out, (dsFit S inp o p.1).1 = .ok out ∧ p.2 = out.ds) ∧
      (thru = true → ∀ d ∈ chunks.flatten, ∀ out, (dsFit S inp o d).1 = .ok out → t d = (out.ds, out.base)) ∧
      ∀ d, thru = false ∨ d ∉ chunks.flatten → t d = ((o.core.kData d).K, (o.core.kData d).K) := by
  obtain ⟨rs, hr⟩ := freshDs_returns hf
  obtain ⟨h1, h2⟩ := freshDs_mem hr
  unfold analyzeDs
  rw [c193_chunks hc, hr]
  simp only [hopt]
  have key : ∀ (rs : List (String × DsOut)), (∀ r ∈ rs, (dsFit S inp o r.1).1 = .ok r.2) → ∀ (t0 : DsRows)
      (tt : List (String × ℝ)), ∃ new t, dsRowsLoop thru true rs t0 tt = (.ok (tt ++ new), t) ∧
        new.map (·.1) = rs.map (·.1) ∧
        (∀ p ∈ new, ∃ out, (dsFit S inp o p.1).1 = .ok out ∧ p.2 = out.ds) ∧
        (thru = true → ∀ d ∈ rs.map (·.1), ∀ out, (dsFit S inp o d).1 = .ok out → t d = (out.ds, out.base)) ∧
        ∀ d, thru = false ∨ d ∉ rs.map (·.1) → t d = t0 d := by
    intro rs
    induction rs with
    | nil => intro _ t0 tt; exact ⟨[], t0, by simp [dsRowsLoop], rfl, by simp, by simp, fun _ _ => rfl⟩
    | cons r rs ih =>
      intro hm t0 tt
      obtain ⟨d, out⟩ := r
      have hd := hm _ List.mem_cons_self
      obtain ⟨f, hf1, hf2⟩ := c193_title (o' := (dsFit S inp o d).2) (Prod.ext hd rfl)
      rw [dsRowsLoop]
      simp only [if_true, hf1]
      obtain ⟨new, t, e1, e2, e3, e4, e5⟩ := ih (fun r hr => hm r (List.mem_cons_of_mem _ hr))
        (if thru = true then fun c' => if c' = d then (out.ds, out.base) else t0 c' else t0) (tt ++ [(d, f * out.base)])
      refine ⟨(d, f * out.base) :: new, t, by rw [e1]; simp, by simp [e2], ?_, ?_, ?_⟩
      · intro p hp
        rcases List.mem_cons.1 hp with rfl | hp
        · exact ⟨out, hd, hf2⟩
        · exact e3 p hp
      · intro hthru d' hd' out' ho'
        by_cases hin : d' ∈ rs.map (·.1)
        · exact e4 hthru d' hin out' ho'
        · have hdd : d' = d := by
            rcases List.mem_cons.1 hd' with h | h
            · exact h
            · exact absurd h hin
          rw [e5 d' (Or.inr hin), if_pos hthru]
          subst hdd
          have he : (dsFit S inp o d').1 = .ok out := hd
          rw [he] at ho'
          cases ho'
          simp
      · intro d' hd'
        rw [e5 d' (by
          rcases hd' with h | h
          · exact Or.inl h
          · exact Or.inr fun h' => h (List.mem_cons_of_mem _ h'))]
        rcases hd' with h | h
        · rw [if_neg (by simp [h])]
        · have hne : d' ≠ d := fun h' => h (by rw [h']; simp)
          split_ifs <;> simp [hne]
  obtain ⟨new, t, e1, e2, e3, e4, e5⟩ := key rs h2 (fun c => ((o.core.kData c).K, (o.core.kData c).K)) []
  rw [h1] at e2 e4 e5
  exact ⟨new, t, by rw [e1]; simp, e2, e3, e4, e5⟩

/-- C193. Without that flag it raises at the first compound: no other coefficient is stored, and their `ds` is K. -/
theorem c193_flag (hc : Spec.Clean o) (hopt : o.optimize = false) {rest : List String} (hl : chunks.flatten = c :: rest)
    (hf : ∀ d ∈ chunks.flatten, ∃ out, (dsFit S inp o d).1 = .ok out) :
    ∃ t, analyzeDs S inp thru chunks o = (.error .unboundLocal, t) ∧
      ∀ d, d ≠ c → t d = ((o.core.kData d).K, (o.core.kData d).K) := by
  obtain ⟨rs, hr⟩ := freshDs_returns hf
  obtain ⟨h1, -⟩ := freshDs_mem hr
  unfold analyzeDs
  rw [c193_chunks hc, hr]
  rw [hl] at h1
  rcases rs with _ | ⟨⟨d, out⟩, rs⟩
  · simp at h1
  · simp only [List.map_cons, List.cons.injEq] at h1
    obtain ⟨rfl, -⟩ := h1
    simp only [hopt]
    rw [dsRowsLoop]
    simp only [Bool.false_eq_true, if_false]
    refine ⟨_, rfl, fun d' hd' => ?_⟩
    cases thru
    · rfl
    · simp [hd']

/-- C193. If a fit raises, as it does on every table built by `__init__` (c129_fresh), the two rows are left equal to K. -/
theorem c193_raise (hc : Spec.Clean o) {e : PyErr} (hd : c ∈ chunks.flatten) (he : (dsFit S inp o c).1 = .error e) :
    ∃ e', analyzeDs S inp thru chunks o = (.error e', fun d => ((o.core.kData d).K, (o.core.kData d).K)) := by
  unfold analyzeDs
  rw [c193_chunks hc]
  rcases hr : Spec.freshDs S inp o chunks.flatten with e' | rs
  · exact ⟨e', rfl⟩
  · exfalso
    obtain ⟨h1, h2⟩ := freshDs_mem hr
    rw [← h1] at hd
    obtain ⟨r, hr1, rfl⟩ := List.mem_map.1 hd
    rw [h2 r hr1] at he
    cases he

/-- The fits of the column with two compounds return. -/
theorem exDs_fits (b : Bool) : ∀ c ∈ ["a", "b"], ∃ out, (dsFit (fun _ _ => (.ok fun _ _ => 0, fun _ => ⟨0, 0, 0⟩))
    ⟨1, fun _ => some (1, 1)⟩ { exDsObj with optimize := b } c).1 = .ok out := by
  intro c _
  obtain ⟨out, o', h⟩ := c129_returns (S := fun _ _ => (.ok fun _ _ => 0, fun _ => ⟨0, 0, 0⟩))
    (inp := ⟨1, fun _ => some (1, 1)⟩) (o := { exDsObj with optimize := b }) (c := c) (tab := [(0, 0), (1, 1)]) rfl
    (p := (1, 1)) rfl (fun _ _ => ⟨_, rfl, by simp only [ssqOf, exDsObj, exDsCore]; norm_num [interpExtrap]⟩)
  exact ⟨out, by rw [h]⟩

theorem c193_false : ¬ C193 := by
  intro h
  obtain ⟨titles, t, h1, -⟩ := h (fun _ _ => (.ok fun _ _ => 0, fun _ => ⟨0, 0, 0⟩)) ⟨1, fun _ => some (1, 1)⟩ true
    [["a", "b"]] { exDsObj with optimize := false } ⟨rfl, rfl⟩ rfl (exDs_fits false)
  obtain ⟨t', h2, -⟩ := c193_flag (S := fun _ _ => (.ok fun _ _ => 0, fun _ => ⟨0, 0, 0⟩))
    (inp := ⟨1, fun _ => some (1, 1)⟩) (thru := true) (chunks := [["a", "b"]]) (o := { exDsObj with optimize := false })
    ⟨rfl, rfl⟩ rfl (c := "a") (rest := ["b"]) rfl (exDs_fits false)
  rw [h1] at h2
  simp at h2

/-- The hypotheses of `c193_partial` can be met. -/
example : ∃ titles t, analyzeDs (fun _ _ => (.ok fun _ _ => 0, fun _ => ⟨0, 0, 0⟩)) ⟨1, fun _ => some (1, 1)⟩ true
    [["a"], ["b"]] { exDsObj with optimize := true } = (.ok titles, t) ∧ titles.length = 2 := by
  obtain ⟨titles, t, h1, h2, -⟩ := c193_partial (thru := true) (chunks := [["a"], ["b"]])
    (o := { exDsObj with optimize := true }) ⟨rfl, rfl⟩ rfl (exDs_fits true)
  exact ⟨titles, t, h1, by simpa using congrArg List.length h2⟩

/-! ### C194 -/

/-- C194, in full: the table of `process_raw_data` shows a concentration of zero only where one at or below the limit was
measured. -/
def C194 : Prop := ∀ (thru : Bool) (lim : ℝ) (isInfl : String → Bool) (rows : List CsvRow) (ty c : String) (t : ℝ),
  rawCell thru lim isInfl rows ty c t = 0 → ∃ r ∈ rows, r.type = ty ∧ r.comp = c ∧ r.time = t ∧ r.conc ≤ lim

theorem cellRows_mem {rows : List CsvRow} {ty c : String} {t x : ℝ} :
    x ∈ cellRows rows ty c t ↔ ∃ r ∈ rows, r.type = ty ∧ r.comp = c ∧ r.time = t ∧ r.conc = x := by
  simp only [cellRows, List.mem_map, List.mem_filter, decide_eq_true_eq]
  constructor
  · rintro ⟨r, ⟨h1, h2, h3, h4⟩, h5⟩; exact ⟨r, h1, h2, h3, h4, h5⟩
  · rintro ⟨r, h1, h2, h3, h4, h5⟩; exact ⟨r, ⟨h1, h2, h3, h4⟩, h5⟩

theorem exists_le_of_sum_le : ∀ {l : List ℝ} {m : ℝ}, l ≠ [] → l.sum ≤ l.length * m → ∃ x ∈ l, x ≤ m
  | [], _, h, _ => absurd rfl h
  | [a], m, _, h => ⟨a, by simp, by simpa using h⟩
  | a :: b :: l, m, _, h => by
    by_cases ha : a ≤ m
    · exact ⟨a, by simp, ha⟩
    · have : (b :: l).sum ≤ (b :: l).length * m := by
        rw [List.sum_cons, List.length_cons, Nat.cast_add, Nat.cast_one] at h
        push Not at ha
        linarith [h]
      obtain ⟨x, hx, hx2⟩ := exists_le_of_sum_le (by simp) this
      exact ⟨x, List.mem_cons_of_mem _ hx, hx2⟩

/-- C194, for cells with measurements: the mean of them is shown if it is above the limit, and zero is shown only if one
of them was at or below it. -/
theorem c194_partial {thru : Bool} {lim : ℝ} {isInfl : String → Bool} {rows : List CsvRow} {ty c : String} {t : ℝ}
    (h0 : 0 ≤ lim) (hm : ∃ r ∈ rows, r.type = ty ∧ r.comp = c ∧ r.time = t) :
    (lim * (cellRows rows ty c t).length < (cellRows rows ty c t).sum →
      rawCell thru lim isInfl rows ty c t * (cellRows rows ty c t).length = (cellRows rows ty c t).sum) ∧
    (rawCell thru lim isInfl rows ty c t = 0 → ∃ r ∈ rows, r.type = ty ∧ r.comp = c ∧ r.time = t ∧ r.conc ≤ lim) ∧
    (thru = true → isInfl ty = true → 0 < rawCell thru lim isInfl rows ty c t) := by
  obtain ⟨r, hr, h1, h2, h3⟩ := hm
  have hin : r.conc ∈ cellRows rows ty c t := cellRows_mem.2 ⟨r, hr, h1, h2, h3, rfl⟩
  have hne : cellRows rows ty c t ≠ [] := List.ne_nil_of_mem hin
  have hlen : (cellRows rows ty c t).length ≠ 0 := fun h => hne (List.length_eq_zero_iff.1 h)
  have hpos : (0 : ℝ) < (cellRows rows ty c t).length := by exact_mod_cast Nat.pos_of_ne_zero hlen
  have hp : pivotMean (cellRows rows ty c t) = some ((cellRows rows ty c t).sum / (cellRows rows ty c t).length) := by
    rw [pivotMean, if_neg hlen]
  unfold rawCell
  simp only [hp, Option.getD_some]
  refine ⟨fun h => ?_, fun h => ?_, fun h4 h5 => ?_⟩
  · have h' : lim < (cellRows rows ty c t).sum / (cellRows rows ty c t).length := (lt_div_iff₀ hpos).2 h
    rw [if_neg (not_le.2 h'), if_neg (by rintro ⟨-, -, h''⟩; linarith)]
    field_simp
  · by_cases hle : (cellRows rows ty c t).sum / (cellRows rows ty c t).length ≤ lim
    · have : (cellRows rows ty c t).sum ≤ (cellRows rows ty c t).length * lim := by
        rw [div_le_iff₀ hpos] at hle; linarith
      obtain ⟨x, hx, hx2⟩ := exists_le_of_sum_le hne this
      obtain ⟨q, q1, q2, q3, q4, q5⟩ := cellRows_mem.1 hx
      exact ⟨q, q1, q2, q3, q4, q5 ▸ hx2⟩
    · rw [if_neg hle] at h
      push Not at hle
      split_ifs at h
      · norm_num at h
      · linarith
  · by_cases hle : (cellRows rows ty c t).sum / (cellRows rows ty c t).length ≤ lim
    · rw [if_pos hle, if_pos ⟨h4, h5, rfl⟩]; norm_num
    · push Not at hle
      rw [if_neg (not_le.2 hle)]
      split_ifs <;> linarith [show (0 : ℝ) < 0.001 by norm_num]

/-- C194. A cell nobody measured is shown as zero in an effluent, whatever was measured before and after. -/
theorem c194_missing {thru : Bool} {lim : ℝ} {isInfl : String → Bool} {rows : List CsvRow} {ty c : String} {t : ℝ}
    (hm : ∀ r ∈ rows, ¬ (r.type = ty ∧ r.comp = c ∧ r.time = t)) :
    (isInfl ty = false ∨ thru = false → rawCell thru lim isInfl rows ty c t = 0) ∧
    (isInfl ty = true → thru = true → rawCell thru lim isInfl rows ty c t = 1 / 1000) := by
  have hn : cellRows rows ty c t = [] := by
    rw [List.eq_nil_iff_forall_not_mem]
    intro x hx
    obtain ⟨r, h1, h2, h3, h4, -⟩ := cellRows_mem.1 hx
    exact hm r h1 ⟨h2, h3, h4⟩
  unfold rawCell
  simp only [hn, pivotMean, List.length_nil, if_true, Option.getD_none]
  constructor
  · intro h
    rw [if_neg]
    · split_ifs <;> rfl
    · rintro ⟨h1, h2, -⟩
      rcases h with h | h
      · rw [h] at h2; cases h2
      · rw [h] at h1; cases h1
  · intro h1 h2
    rw [if_pos ⟨h2, h1, by split_ifs <;> rfl⟩]; norm_num

theorem c194_false : ¬ C194 := by
  intro h
  obtain ⟨r, hr, h1, h2, h3, -⟩ := h true 0 (fun s => s == "Influent") [⟨0, "F400", "PFOA", 5⟩, ⟨2, "F400", "PFOA", 9⟩,
    ⟨1, "Influent", "PFOA", 40⟩] "F400" "PFOA" 1
    ((c194_missing (by
      intro r hr ⟨a, _, b⟩
      simp only [List.mem_cons, List.not_mem_nil, or_false] at hr
      rcases hr with rfl | rfl | rfl
      · norm_num at b
      · norm_num at b
      · exact absurd a (by decide))).1 (Or.inl (by decide)))
  simp only [List.mem_cons, List.not_mem_nil, or_false] at hr
  rcases hr with rfl | rfl | rfl
  · norm_num at h3
  · norm_num at h3
  · exact absurd h1 (by decide)

/-! ### C195 -/

/-- C195, in full: the older reader and the copy in the web application make the same table of a data sheet as
`process_input_file`. -/
def C195 : Prop := ∀ (thru : Bool) (lim : ℝ) (s : RawSheet),
  rawNew thru lim s = fileData thru lim s ∧ fileDataShiny thru lim s = fileData thru lim s

theorem limitLe_eq {v : Stream} {lim : ℝ} (h : lim = 0 ∨ ∀ c t, v c t ≠ some lim) : v.limitLe lim = v.limit lim := by
  funext c t
  unfold Stream.limitLe Stream.limit
  rcases hv : v c t with _ | x
  · rfl
  · simp only [Option.map_some, Option.some.injEq]
    rcases lt_trichotomy x lim with hx | rfl | hx
    · rw [if_pos hx.le, if_pos hx]
    · rcases h with rfl | h
      · simp
      · exact absurd hv (h c t)
    · rw [if_neg (not_le.2 hx), if_neg (not_lt.2 hx.le)]

/-- C195, when chained assignments reach the table and no measurement is equal to the reporting limit, or that is zero. -/
theorem c195_partial {lim : ℝ} {s : RawSheet}
    (h : lim = 0 ∨ ∀ c t, s.infl c t ≠ some lim ∧ s.effl c t ≠ some lim) :
    rawNew true lim s = fileData true lim s := by
  unfold rawNew fileData
  rw [limitLe_eq (v := s.infl) (h.imp id fun h c t => (h c t).1), limitLe_eq (v := s.effl) (h.imp id fun h c t => (h c t).2)]
  simp only [Stream.fillThru, if_true]

/-- C195. The copy in the web application is the same when they do. -/
theorem c195_shiny {lim : ℝ} {s : RawSheet} : fileDataShiny true lim s = fileData true lim s := by
  unfold fileDataShiny fileData
  simp only [Stream.fillThru, if_true]

/-- C195. When they do not, a compound missing at a time other than zero stays missing, in both, where
`process_input_file` fills it. -/
theorem c195_unfilled {lim : ℝ} {s : RawSheet} {t : ℝ} (ht : 0 < t) (hs : t ∈ s.idx) (hm : s.effl c t = none)
    (hcc : c ∈ s.comps) :
    (rawNew false lim s).2.2 c t = none ∧ (fileDataShiny false lim s).2.2 c t = none ∧
    ((fileData false lim s).2.2 c t).isSome := by
  refine ⟨?_, ?_, ?_⟩
  · simp only [rawNew, Stream.fillThru, Bool.false_eq_true, if_false, Stream.start]
    rw [if_neg (fun h => ht.ne' h.1)]
    simp [Stream.limitLe, hm]
  · simp only [fileDataShiny, Stream.fillThru, Bool.false_eq_true, if_false, Stream.start]
    rw [if_neg (fun h => ht.ne' h.1)]
    simp [Stream.limit, hm]
  · simp only [fileData, Stream.fill]
    rw [if_pos]
    · rfl
    · refine ⟨fun h => ?_, ht.ne', ht.le, hs⟩
      have := (mem_full.1 h).2 c hcc
      rw [hm] at this
      cases this

/-- C195. A measurement equal to the reporting limit is kept by `process_input_file` and dropped to zero by the older
reader. -/
theorem c195_limit {thru : Bool} {lim : ℝ} {s : RawSheet} {t : ℝ} (ht : t ≠ 0)
    (hfull : t ∈ s.idx ∧ Spec.AllAt s.comps s.effl t) (hm : s.effl c t = some lim) :
    (rawNew thru lim s).2.2 c t = some 0 ∧ (fileData thru lim s).2.2 c t = some lim := by
  have h1 : t ∈ (s.effl.limitLe lim).full s.comps s.idx := by
    simp only [Stream.full, List.mem_filter, decide_eq_true_eq]
    refine ⟨hfull.1, fun d hd => ?_⟩
    simpa [Stream.limitLe] using hfull.2 d hd
  have h2 : t ∈ (s.effl.limit lim).full s.comps s.idx := mem_full.2 hfull
  constructor
  · simp only [rawNew]
    have : ∀ last, (s.effl.limitLe lim).fillThru thru s.comps s.idx last c t = (s.effl.limitLe lim) c t := by
      intro last
      cases thru
      · simp only [Stream.fillThru, Bool.false_eq_true, if_false, Stream.start]
        rw [if_neg (fun h => ht h.1)]
      · simp only [Stream.fillThru, if_true, Stream.fill]
        rw [if_neg (fun h => h.1 h1), Stream.start, if_neg (fun h => ht h.1)]
    rw [this]
    simp [Stream.limitLe, hm]
  · simp only [fileData, Stream.fill]
    rw [if_neg (fun h => h.1 h2), Stream.start, if_neg (fun h => ht h.1)]
    simp [Stream.limit, hm]

theorem c195_false : ¬ C195 := by
  intro h
  have h1 := (h true 1 ⟨["A"], [0, 1], fun _ _ => some 5, fun _ _ => some 1⟩).1
  obtain ⟨e1, e2⟩ := c195_limit (thru := true) (lim := 1) (s := ⟨["A"], [0, 1], fun _ _ => some 5, fun _ _ => some 1⟩)
    (t := 1) (c := "A") one_ne_zero ⟨by simp, fun _ _ => rfl⟩ rfl
  rw [h1, e2] at e1
  simp at e1

/-- A sheet with a gap. -/
example : (rawNew false 0 ⟨["A"], [0, 1, 2], fun _ _ => some 5, fun _ t => if t = 1 then none else some 1⟩).2.2 "A" 1 = none :=
  (c195_unfilled (c := "A") one_pos (by simp) (by simp) (by simp)).1

end
end WTM
