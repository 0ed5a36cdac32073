import Mathlib.Tactic
import Mathlib.Analysis.SpecialFunctions.Pow.Real
import Verif.Model.IsoFit

/-! C133-C135: the isotherm fit. -/
set_option autoImplicit false
namespace WTM
noncomputable section

open Filter Topology

/-- Points (equilibrium concentration, loading) by mass balance over each bottle, rows with a gap left out. -/
def Spec.bottles (rows : List (Option ℝ × Option ℝ × Option ℝ)) : List (ℝ × ℝ) :=
  rows.flatMap fun r => match r with
    | (some c0, some ce, some m) => [(ce, (c0 - ce) / m)]
    | _ => []

/-- Sum of squared differences. -/
def Spec.sse (q : ℝ → ℝ) (pts : List (ℝ × ℝ)) : ℝ := (pts.map fun p => (p.2 - q p.1) ^ 2).sum

/-- What is assumed of `curve_fit`: as many parameters as asked for, none negative, none better. -/
def Spec.LeastSq (fit : CurveFit) : Prop := ∀ f n pts popt cov, fit f n pts = .ok (popt, cov) →
  popt.length = n ∧ (∀ x ∈ popt, 0 ≤ x) ∧ ∀ p' : List ℝ, p'.length = n → (∀ x ∈ p', 0 ≤ x) →
    Spec.sse (fun c => f c popt) pts ≤ Spec.sse (fun c => f c p') pts

/-- The parameters returned are those of least squares for the points `pts`. -/
def Spec.BestIso (name : String) (pts : List (ℝ × ℝ)) (out : List (String × ℝ × ℝ)) : Prop :=
  (name = "freundlich" → ∃ K n eK en : ℝ, out = [("K", K, eK), ("1/n", n, en)] ∧ 0 ≤ K ∧ 0 ≤ n ∧ 0 ≤ eK ∧ 0 ≤ en ∧
    ∀ K' n' : ℝ, 0 ≤ K' → 0 ≤ n' → Spec.sse (fun c => K * c ^ n) pts ≤ Spec.sse (fun c => K' * c ^ n') pts) ∧
  (name = "langmuir" → ∃ K q eK eq : ℝ, out = [("KL", K, eK), ("qm", q, eq)] ∧ 0 ≤ K ∧ 0 ≤ q ∧ 0 ≤ eK ∧ 0 ≤ eq ∧
    ∀ K' q' : ℝ, 0 ≤ K' → 0 ≤ q' →
      Spec.sse (fun c => q * (K * c) / (1 + K * c)) pts ≤ Spec.sse (fun c => q' * (K' * c) / (1 + K' * c)) pts) ∧
  (name = "redlichpeterson" → ∃ A B M eA eB eM : ℝ, out = [("A", A, eA), ("B", B, eB), ("M", M, eM)] ∧ 0 ≤ A ∧ 0 ≤ B ∧ 0 ≤ M ∧
    0 ≤ eA ∧ 0 ≤ eB ∧ 0 ≤ eM ∧ ∀ A' B' M' : ℝ, 0 ≤ A' → 0 ≤ B' → 0 ≤ M' →
      Spec.sse (fun c => A * c / (B + c ^ M)) pts ≤ Spec.sse (fun c => A' * c / (B' + c ^ M')) pts)

/-- C133, in full: the fit is to the loadings of the table's `C0`, `Ce` and `mass`. -/
def C133 : Prop := ∀ (fit : CurveFit) (name : String) (t t' : IsoTab) (out : List (String × ℝ × ℝ)), Spec.LeastSq fit →
  isoFit fit name t = (.ok out, t') → Spec.BestIso name (Spec.bottles t.rows) out

variable {fit : CurveFit} {name : String} {t t' : IsoTab} {out : List (String × ℝ × ℝ)}

theorem isoPoints_bottles (rows : List (Option ℝ × Option ℝ × Option ℝ)) :
    isoFinite (isoPoints ⟨rows, some (rows.map isoLoad)⟩) = some (Spec.bottles rows) := by
  unfold isoPoints
  simp only [Option.getD_some]
  induction rows with
  | nil => rfl
  | cons r rows ih =>
    obtain ⟨a, b, m⟩ := r
    rw [List.map_cons, List.map_cons, List.zip_cons_cons, List.filterMap_cons]
    unfold Spec.bottles at ih ⊢
    rcases a with _ | a <;> rcases b with _ | b <;> rcases m with _ | m <;>
      simp only [isoLoad, Option.map_none, Option.map_some, List.flatMap_cons, List.nil_append, List.singleton_append,
        isoFinite, ih]

/-- What any call that returns has done: fitted the points of the table, with its column `q` if it has one. -/
theorem isoFit_ok (hL : Spec.LeastSq fit) (h : isoFit fit name t = (.ok out, t')) :
    t' = isoFill t ∧ ∃ pts, isoFinite (isoPoints t') = some pts ∧ pts ≠ [] ∧ Spec.BestIso (lowerStr name) pts out := by
  unfold isoFit at h
  simp only at h
  by_cases he : isoPoints (isoFill t) = []
  · rw [if_pos he] at h; simp at h
  rw [if_neg he] at h
  rcases hm : isoModel name with _ | ⟨f, names⟩
  · rw [hm] at h; simp at h
  rw [hm] at h
  simp only at h
  rcases hp : isoFinite (isoPoints (isoFill t)) with _ | pts
  · rw [hp] at h; simp at h
  rw [hp] at h
  simp only at h
  rcases hf : fit f names.length pts with e | ⟨popt, cov⟩
  · rw [hf] at h; simp at h
  rw [hf] at h
  simp only [Prod.mk.injEq, Except.ok.injEq] at h
  obtain ⟨rfl, rfl⟩ := h
  obtain ⟨hlen, hpos, hbest⟩ := hL _ _ _ _ _ hf
  refine ⟨rfl, pts, hp, ?_, ?_⟩
  · rintro rfl
    rcases hx : isoPoints (isoFill t) with _ | ⟨⟨x, y⟩, l⟩
    · exact he hx
    · rw [hx] at hp
      rcases x with _ | x
      · simp [isoFinite] at hp
      · rcases hq : isoFinite l with _ | l'
        · simp [isoFinite, hq] at hp
        · simp [isoFinite, hq] at hp
  · unfold isoModel at hm
    refine ⟨fun hn => ?_, fun hn => ?_, fun hn => ?_⟩
    · rw [if_pos hn] at hm
      simp only [Option.some.injEq, Prod.mk.injEq] at hm
      obtain ⟨rfl, rfl⟩ := hm
      rcases popt with _ | ⟨a, _ | ⟨b, _ | ⟨c, l⟩⟩⟩
      · simp at hlen
      · simp at hlen
      · refine ⟨a, b, _, _, rfl, hpos a (by simp), hpos b (by simp), Real.sqrt_nonneg _, Real.sqrt_nonneg _, ?_⟩
        intro K' n' hK hn
        exact hbest [K', n'] rfl (by simp [hK, hn])
      · simp at hlen
    · rw [if_neg (by rw [hn]; decide), if_pos hn] at hm
      simp only [Option.some.injEq, Prod.mk.injEq] at hm
      obtain ⟨rfl, rfl⟩ := hm
      have hl : ∀ c K N, isoLangmuir c K N = N * (K * c) / (1 + K * c) := fun c K N => by unfold isoLangmuir; rw [mul_comm N]
      rcases popt with _ | ⟨a, _ | ⟨b, _ | ⟨c, l⟩⟩⟩
      · simp at hlen
      · simp at hlen
      · refine ⟨a, b, _, _, rfl, hpos a (by simp), hpos b (by simp), Real.sqrt_nonneg _, Real.sqrt_nonneg _, ?_⟩
        intro K' n' hK hn
        have := hbest [K', n'] rfl (by simp [hK, hn])
        simp only [hl] at this
        exact this
      · simp at hlen
    · rw [if_neg (by rw [hn]; decide), if_neg (by rw [hn]; decide), if_pos hn] at hm
      simp only [Option.some.injEq, Prod.mk.injEq] at hm
      obtain ⟨rfl, rfl⟩ := hm
      rcases popt with _ | ⟨a, _ | ⟨b, _ | ⟨c, _ | ⟨d, l⟩⟩⟩⟩
      · simp at hlen
      · simp at hlen
      · simp at hlen
      · refine ⟨a, b, c, _, _, _, rfl, hpos a (by simp), hpos b (by simp), hpos c (by simp), Real.sqrt_nonneg _,
          Real.sqrt_nonneg _, Real.sqrt_nonneg _, ?_⟩
        intro A' B' M' hA hB hM
        exact hbest [A', B', M'] rfl (by simp [hA, hB, hM])
      · simp at hlen

/-- C133 for a table without a column `q`. The name is read in lower case. -/
theorem c133_partial (hL : Spec.LeastSq fit) (hq : t.q = none) (h : isoFit fit name t = (.ok out, t')) :
    Spec.BestIso (lowerStr name) (Spec.bottles t.rows) out ∧ Spec.bottles t.rows ≠ [] := by
  obtain ⟨rfl, pts, hp, hne, hb⟩ := isoFit_ok hL h
  have : isoFill t = ⟨t.rows, some (t.rows.map isoLoad)⟩ := by unfold isoFill; rw [hq]
  rw [this, isoPoints_bottles] at hp
  rw [Option.some.inj hp]
  exact ⟨hb, hne⟩

/-- C133: the caller's table gets the column, and every later call fits that column whatever the other columns are. -/
theorem c133_stale {rows' : List (Option ℝ × Option ℝ × Option ℝ)} {name' : String}
    (hce : rows'.map (fun r => r.2.1) = t.rows.map (fun r => r.2.1)) :
    (isoFit fit name t).2.rows = t.rows ∧ (isoFit fit name t).2.q.isSome ∧
    (isoFit fit name' { (isoFit fit name t).2 with rows := rows' }).1 = (isoFit fit name' (isoFit fit name t).2).1 := by
  have h2 : (isoFit fit name t).2 = isoFill t := by
    unfold isoFit
    simp only
    by_cases he : isoPoints (isoFill t) = []
    · rw [if_pos he]
    rw [if_neg he]
    rcases isoModel name with _ | ⟨f, names⟩
    · rfl
    rcases isoFinite (isoPoints (isoFill t)) with _ | pts
    · rfl
    simp only
    rcases fit f names.length pts with e | ⟨popt, cov⟩ <;> rfl
  rw [h2]
  have hr : (isoFill t).rows = t.rows := by unfold isoFill; split <;> rfl
  obtain ⟨q, hq⟩ : ∃ q, (isoFill t).q = some q := by unfold isoFill; split <;> simp_all
  refine ⟨hr, by rw [hq]; rfl, ?_⟩
  have fill_id : ∀ (u : IsoTab) (q : List (Option ℝ)), u.q = some q → isoFill u = u := by
    intro u q hu
    unfold isoFill
    rw [hu]
  have e1 : isoFill { isoFill t with rows := rows' } = { isoFill t with rows := rows' } := fill_id _ q hq
  have e2 : isoFill (isoFill t) = isoFill t := fill_id _ q hq
  have e3 : isoPoints { isoFill t with rows := rows' } = isoPoints (isoFill t) := by
    unfold isoPoints
    simp only [hce, hr]
  unfold isoFit
  simp only [e1, e2, e3]
  by_cases he : isoPoints (isoFill t) = []
  · rw [if_pos he, if_pos he]
  rw [if_neg he, if_neg he]
  rcases isoModel name' with _ | ⟨f, names⟩
  · rfl
  rcases isoFinite (isoPoints (isoFill t)) with _ | pts
  · rfl
  simp only
  rcases fit f names.length pts with e | ⟨popt, cov⟩ <;> rfl

/-- C133: a name that is none of the three ends in `UnboundLocalError`, after the table is changed. -/
theorem c133_unknown (h1 : lowerStr name ≠ "freundlich") (h2 : lowerStr name ≠ "langmuir")
    (h3 : lowerStr name ≠ "redlichpeterson") (hne : isoPoints (isoFill t) ≠ []) :
    isoFit fit name t = (.error .unboundLocal, isoFill t) := by
  unfold isoFit isoModel
  simp only [if_neg h1, if_neg h2, if_neg h3, if_neg hne]

/-- A perfect fitter: the best parameters if there are any. -/
def exFit : CurveFit := fun f n pts =>
  open Classical in
  if h : ∃ popt : List ℝ, popt.length = n ∧ (∀ x ∈ popt, 0 ≤ x) ∧ ∀ p' : List ℝ, p'.length = n → (∀ x ∈ p', 0 ≤ x) →
    Spec.sse (fun c => f c popt) pts ≤ Spec.sse (fun c => f c p') pts then .ok (h.choose, fun _ _ => 0)
  else .error .valueError

theorem exFit_ls : Spec.LeastSq exFit := by
  intro f n pts popt cov h
  unfold exFit at h
  split at h
  · rename_i hex
    simp only [Except.ok.injEq, Prod.mk.injEq] at h
    obtain ⟨rfl, -⟩ := h
    exact hex.choose_spec
  · simp at h

/-- One bottle: from 2 to 1 with unit mass, loading 1; the column `q`, if any, says 5. -/
def exIso (q : Option (List (Option ℝ))) : IsoTab := ⟨[(some 2, some 1, some 1)], q⟩

theorem exIso_runs (q : ℝ) (hq : 0 ≤ q) (col : Option (List (Option ℝ)))
    (hc : isoPoints (isoFill (exIso col)) = [(some 1, q)]) : ∃ out, isoFit exFit "freundlich" (exIso col) = (.ok out, isoFill (exIso col)) := by
  unfold isoFit
  simp only
  rw [if_neg (by rw [hc]; simp), hc]
  have hm : isoModel "freundlich" = some (fun c p => isoFreundlich c (p.getD 0 0) (p.getD 1 0), ["K", "1/n"]) := by
    unfold isoModel
    rw [if_pos (by decide)]
  rw [hm]
  simp only [isoFinite, Option.map_some]
  unfold exFit
  rw [dif_pos]
  · exact ⟨_, rfl⟩
  · refine ⟨[q, 1], rfl, by simp [hq], fun p' _ _ => ?_⟩
    have : Spec.sse (fun c => isoFreundlich c ([q, 1].getD 0 0) ([q, 1].getD 1 0)) [(1, q)] = 0 := by
      simp [Spec.sse, isoFreundlich]
    rw [this]
    exact List.sum_nonneg (by simp only [List.mem_map]; rintro x ⟨p, -, rfl⟩; positivity)

/-- The hypotheses of `c133_partial` can be met. -/
example : ∃ out t', Spec.LeastSq exFit ∧ (exIso none).q = none ∧ isoFit exFit "freundlich" (exIso none) = (.ok out, t') := by
  obtain ⟨out, h⟩ := exIso_runs 1 zero_le_one none (by
    show [(some (1 : ℝ), ((2 : ℝ) - 1) / 1)] = _; norm_num)
  exact ⟨out, _, exFit_ls, rfl, h⟩

theorem c133_false : ¬ C133 := by
  intro h
  have hc : isoPoints (isoFill (exIso (some [some 5]))) = [(some 1, 5)] := rfl
  obtain ⟨out, e⟩ := exIso_runs 5 (by norm_num) (some [some 5]) hc
  obtain ⟨K, n, eK, en, rfl, hK, hn, -, -, hbest⟩ := (h exFit "freundlich" _ _ out exFit_ls e).1 rfl
  obtain ⟨-, pts, hp, -, hb⟩ := isoFit_ok exFit_ls e
  rw [hc] at hp
  simp only [isoFinite, Option.map_some, Option.some.injEq] at hp
  subst hp
  obtain ⟨K2, n2, _, _, e2, -, -, -, -, hbest2⟩ := hb.1 (by decide)
  simp only [List.cons.injEq, Prod.mk.injEq, true_and, and_true] at e2
  obtain ⟨⟨rfl, -⟩, rfl, -⟩ := e2
  have a1 := hbest 1 1 zero_le_one zero_le_one
  have a2 := hbest2 5 1 (by norm_num) zero_le_one
  simp only [Spec.sse, Spec.bottles, exIso, List.flatMap_cons, List.flatMap_nil, List.append_nil, List.map_cons,
    List.map_nil, List.sum_cons, List.sum_nil, Real.one_rpow] at a1 a2
  nlinarith

/-! ### C134: the isotherm equations -/

/-- Langmuir: from zero, strictly increasing, below `qm`, half of it at `1/KL`, and towards it. -/
theorem c134_langmuir {K N : ℝ} (hK : 0 < K) (hN : 0 < N) : isoLangmuir 0 K N = 0 ∧
    (∀ c d, 0 ≤ c → c < d → isoLangmuir c K N < isoLangmuir d K N) ∧ (∀ c, 0 ≤ c → isoLangmuir c K N < N) ∧
    isoLangmuir (1 / K) K N = N / 2 ∧ Tendsto (fun c => isoLangmuir c K N) atTop (𝓝 N) := by
  have hform : ∀ c, 0 ≤ c → isoLangmuir c K N = N - N / (1 + K * c) := by
    intro c hc
    have : 0 < 1 + K * c := by positivity
    unfold isoLangmuir
    field_simp
    ring
  refine ⟨by simp [isoLangmuir], ?_, ?_, ?_, ?_⟩
  · intro c d hc hd
    rw [hform c hc, hform d (hc.trans hd.le)]
    have h1 : 0 < 1 + K * c := by positivity
    have : N / (1 + K * d) < N / (1 + K * c) := div_lt_div_of_pos_left hN h1 (by nlinarith)
    linarith
  · intro c hc
    rw [hform c hc]
    have : 0 < N / (1 + K * c) := by positivity
    linarith
  · rw [hform _ (by positivity)]
    rw [mul_one_div_cancel hK.ne']
    ring
  · have h1 : Tendsto (fun c => 1 + K * c) atTop atTop :=
      tendsto_atTop_add_const_left _ _ (tendsto_id.const_mul_atTop hK)
    have h2 : Tendsto (fun c => N - N / (1 + K * c)) atTop (𝓝 (N - 0)) :=
      tendsto_const_nhds.sub (h1.const_div_atTop N)
    rw [sub_zero] at h2
    refine h2.congr' ?_
    filter_upwards [eventually_ge_atTop 0] with c hc
    exact (hform c hc).symm

/-- Freundlich: a straight line in logarithms, strictly increasing. -/
theorem c134_freundlich {k n : ℝ} (hk : 0 < k) (hn : 0 < n) : isoFreundlich 0 k n = 0 ∧
    (∀ c d, 0 ≤ c → c < d → isoFreundlich c k n < isoFreundlich d k n) ∧
    ∀ c, 0 < c → Real.log (isoFreundlich c k n) = Real.log k + n * Real.log c := by
  refine ⟨by simp [isoFreundlich, Real.zero_rpow hn.ne'], ?_, ?_⟩
  · intro c d hc hd
    exact mul_lt_mul_of_pos_left (Real.rpow_lt_rpow hc hd hn) hk
  · intro c hc
    unfold isoFreundlich
    rw [Real.log_mul hk.ne' (Real.rpow_pos_of_pos hc n).ne', Real.log_rpow hc]

/-- Redlich-Peterson contains the other two. -/
theorem c134_redlich {A B M c : ℝ} (hc : 0 < c) : (B ≠ 0 → isoRedlich c A B 1 = isoLangmuir c (1 / B) A) ∧
    isoRedlich c A 0 M = isoFreundlich c A (1 - M) := by
  constructor
  · intro hB
    unfold isoRedlich isoLangmuir
    rw [Real.rpow_one]
    have : 1 + 1 / B * c = (B + c) / B := by field_simp
    rw [this, div_div_eq_mul_div]
    congr 1
    field_simp
  · unfold isoRedlich isoFreundlich
    rw [zero_add, Real.rpow_sub hc, Real.rpow_one, mul_div_assoc]

/-- Redlich-Peterson with exponent up to one and positive `B` is strictly increasing; past one it need not be. -/
theorem c134_increasing {A B M c d : ℝ} (hA : 0 < A) (hB : 0 < B) (hM1 : M ≤ 1) (hc : 0 < c) (hd : c < d) :
    isoRedlich c A B M < isoRedlich d A B M ∧ isoRedlich 2 A 1 2 < isoRedlich 1 A 1 2 := by
  have h1 := Real.rpow_pos_of_pos hc M
  have h2 := Real.rpow_pos_of_pos (hc.trans hd) M
  constructor
  · unfold isoRedlich
    rw [div_lt_div_iff₀ (by positivity) (by positivity)]
    have key : c * d ^ M ≤ d * c ^ M := by
      have e1 : c * d ^ M = c ^ M * d ^ M * c ^ (1 - M) := by
        rw [Real.rpow_sub hc, Real.rpow_one]; field_simp
      have e2 : d * c ^ M = c ^ M * d ^ M * d ^ (1 - M) := by
        rw [Real.rpow_sub (hc.trans hd), Real.rpow_one]; field_simp
      rw [e1, e2]
      exact mul_le_mul_of_nonneg_left (Real.rpow_le_rpow hc.le hd.le (by linarith)) (by positivity)
    nlinarith [mul_pos hA (mul_pos hB (sub_pos.2 hd)), mul_le_mul_of_nonneg_left key hA.le]
  · unfold isoRedlich
    rw [Real.one_rpow, show (2 : ℝ) ^ (2 : ℝ) = 4 by norm_num]
    linarith

/-! ### C135: the bands drawn -/

theorem isoMean_eq {pts : List (ℝ × ℝ)} {M : ℝ} (hne : pts ≠ []) (hM : M * pts.length = (pts.map Prod.fst).sum) :
    isoMean pts = M := by
  have : (pts.length : ℝ) ≠ 0 := by exact_mod_cast (List.length_pos_iff.2 hne).ne'
  unfold isoMean
  rw [← hM]
  field_simp

/-- C135: the prediction band contains the confidence band, both are narrowest at the mean concentration and symmetric
about it, and the squares of the half widths differ by that of the residual error. -/
theorem c135_bands {q : ℝ} {pts : List (ℝ × ℝ)} {f : ℝ → ℝ} {m : ℕ} {x M : ℝ} (hq : 0 ≤ q) (hne : pts ≠ [])
    (hm : m ≤ pts.length) (hM : M * pts.length = (pts.map Prod.fst).sum) :
    0 ≤ isoCi q pts f m x ∧ isoCi q pts f m x ≤ isoPi q pts f m x ∧
    isoCi q pts f m (M) ≤ isoCi q pts f m x ∧ isoPi q pts f m (M) ≤ isoPi q pts f m x ∧
    isoPi q pts f m x ^ 2 = isoCi q pts f m x ^ 2 + q ^ 2 * (Spec.sse f pts / (pts.length - m)) ∧
    (∀ d, isoCi q pts f m (M + d) = isoCi q pts f m (M - d)) := by
  obtain rfl := isoMean_eq hne hM
  have hS : 0 ≤ (pts.map fun p => (p.1 - isoMean pts) ^ 2).sum :=
    List.sum_nonneg (by simp only [List.mem_map]; rintro y ⟨p, -, rfl⟩; positivity)
  have hl : 0 ≤ isoLever pts x := div_nonneg (sq_nonneg _) hS
  have hl0 : isoLever pts (isoMean pts) = 0 := by simp [isoLever]
  have hn : (0 : ℝ) ≤ 1 / pts.length := by positivity
  have hs : 0 ≤ q * isoErr pts f m := mul_nonneg hq (Real.sqrt_nonneg _)
  refine ⟨mul_nonneg hs (Real.sqrt_nonneg _), ?_, ?_, ?_, ?_, ?_⟩
  · exact mul_le_mul_of_nonneg_left (Real.sqrt_le_sqrt (by linarith)) hs
  · exact mul_le_mul_of_nonneg_left (Real.sqrt_le_sqrt (by rw [hl0]; linarith)) hs
  · exact mul_le_mul_of_nonneg_left (Real.sqrt_le_sqrt (by rw [hl0]; linarith)) hs
  · unfold isoPi isoCi
    rw [mul_pow, mul_pow _ (Real.sqrt (1 / _ + _)), Real.sq_sqrt (by linarith), Real.sq_sqrt (by linarith), mul_pow,
      show isoErr pts f m ^ 2 = Spec.sse f pts / (pts.length - m) from Real.sq_sqrt (div_nonneg
        (List.sum_nonneg (by simp only [List.mem_map]; rintro y ⟨p, -, rfl⟩; positivity))
        (sub_nonneg.2 (by exact_mod_cast hm)))]
    ring
  · intro d
    unfold isoCi isoLever
    rw [add_sub_cancel_left, sub_sub_cancel_left, neg_sq]

/-- The band at the mean of the data: the standard error of the mean times Student's quantile. -/
theorem c135_mean {q M : ℝ} {pts : List (ℝ × ℝ)} {f : ℝ → ℝ} {m : ℕ} (hne : pts ≠ [])
    (hM : M * pts.length = (pts.map Prod.fst).sum) : isoCi q pts f m M =
    q * Real.sqrt (Spec.sse f pts / (pts.length - m)) / Real.sqrt pts.length := by
  obtain rfl := isoMean_eq hne hM
  unfold isoCi isoErr Spec.sse
  rw [show isoLever pts (isoMean pts) = 0 by simp [isoLever], add_zero, Real.sqrt_div zero_le_one, Real.sqrt_one]
  ring

/-- Two points with mean concentration 2. -/
example : (2 : ℝ) * ([((1 : ℝ), (1 : ℝ)), (3, 2)].length : ℝ) = ([((1 : ℝ), (1 : ℝ)), (3, 2)].map Prod.fst).sum := by
  norm_num

/-- C135: the curve that is fitted exactly has bands of no width. -/
theorem c135_exact {q : ℝ} {pts : List (ℝ × ℝ)} {f : ℝ → ℝ} {m : ℕ} {x : ℝ} (h : ∀ p ∈ pts, p.2 = f p.1) :
    isoCi q pts f m x = 0 ∧ isoPi q pts f m x = 0 := by
  have : (pts.map fun p => (p.2 - f p.1) ^ 2).sum = 0 := by
    rw [List.sum_eq_zero]
    simp only [List.mem_map]
    rintro y ⟨p, hp, rfl⟩
    rw [h p hp]; ring
  unfold isoCi isoPi isoErr
  rw [this]
  simp

end
end WTM
