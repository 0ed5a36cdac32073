import Mathlib.Tactic
import Mathlib.Analysis.SpecialFunctions.Pow.Deriv
import Mathlib.Analysis.Calculus.Deriv.MeanValue
import Verif.Model.Corr

/-! C86, C120-C122: film-transfer correlations, properties of water, and diffusivities. -/
set_option autoImplicit false
namespace WTM
noncomputable section

/-! ### C86 -/

/-- The names `kf_calc` knows. -/
def Spec.corrNames : List String :=
  ["Chern and Chien", "Tan et al", "Wilson and Geankoplis", "Ohashi et al", "Williamson et al", "Ko et al",
   "Wakau and Funazkri", "Kakaoka et al", "Gnielinski"]

/-- A usable film coefficient: a positive number that grows with the flow. -/
def Spec.FilmLaw (f : ℝ → KfVal) : Prop :=
  ∃ g : ℝ → ℝ, (∀ re, 0 < re → f re = .num (g re) ∧ 0 < g re) ∧ ∀ r s, 0 < r → r < s → g r < g s

/-- C86, in full: every correlation gives a positive number that grows with the Reynolds number. -/
def C86 : Prop := ∀ p sc ebed : ℝ, 0 < p → 1 ≤ sc → 0 < ebed → ebed < 1 → ∀ n ∈ Spec.corrNames,
  Spec.FilmLaw fun re => kfCalc p re sc ebed n

theorem pow_lt {a : ℝ} (ha : 0 < a) {r s : ℝ} (hr : 0 < r) (hrs : r < s) : r ^ a < s ^ a :=
  Real.rpow_lt_rpow hr.le hrs ha

theorem kf_chern (p re sc e : ℝ) : kfCalc p re sc e "Chern and Chien" =
    .num (p * (1 + 1.5 * (1 - e)) * (2 + 0.644 * re ^ (0.5 : ℝ) * sc ^ (1 / 3 : ℝ))) := by
  unfold kfCalc; rw [if_pos rfl]

theorem kf_tan (p re sc e : ℝ) : kfCalc p re sc e "Tan et al" = .num (p * 1.1 / e * (re * sc) ^ (1 / 3 : ℝ)) := by
  unfold kfCalc; rw [if_neg (by decide), if_pos rfl]

theorem kf_wilson (p re sc e : ℝ) : kfCalc p re sc e "Wilson and Geankoplis" =
    .num (p * 1.09 / e * (re * sc) ^ (1 / 3 : ℝ)) := by
  unfold kfCalc; rw [if_neg (by decide), if_neg (by decide), if_pos rfl]

theorem kf_ohashi (p re sc e : ℝ) : kfCalc p re sc e "Ohashi et al" = .tuple (p * ohashi re sc) := by
  unfold kfCalc; rw [if_neg (by decide), if_neg (by decide), if_neg (by decide), if_pos rfl]

theorem kf_williamson (p re sc e : ℝ) : kfCalc p re sc e "Williamson et al" =
    .num (p * 2.4 * e * re ^ (0.3 : ℝ) * sc ^ (0.42 : ℝ)) := by
  unfold kfCalc; rw [if_neg (by decide), if_neg (by decide), if_neg (by decide), if_neg (by decide), if_pos rfl]

theorem kf_ko (p re sc e : ℝ) : kfCalc p re sc e "Ko et al" =
    .num (p * (0.325 / (e * re ^ (0.36 : ℝ) * sc ^ (1 / 3 : ℝ)))) := by
  unfold kfCalc
  rw [if_neg (by decide), if_neg (by decide), if_neg (by decide), if_neg (by decide), if_neg (by decide), if_pos rfl]

theorem kf_wakau (p re sc e : ℝ) : kfCalc p re sc e "Wakau and Funazkri" =
    .num (p * (2 + 1.1 * re ^ (0.6 : ℝ) * sc ^ (1 / 3 : ℝ))) := by
  unfold kfCalc
  rw [if_neg (by decide), if_neg (by decide), if_neg (by decide), if_neg (by decide), if_neg (by decide),
    if_neg (by decide), if_pos rfl]

theorem kf_kakaoka (p re sc e : ℝ) : kfCalc p re sc e "Kakaoka et al" =
    .num (p * (1.85 * ((1 - e) / e) ^ (1 / 3 : ℝ) * re ^ (1 / 3 : ℝ) * sc ^ (1 / 3 : ℝ))) := by
  unfold kfCalc
  rw [if_neg (by decide), if_neg (by decide), if_neg (by decide), if_neg (by decide), if_neg (by decide),
    if_neg (by decide), if_neg (by decide), if_pos rfl]

/-- Any other text gives Gnielinski's correlation. -/
theorem kf_other {n : String} (h : n ∉ Spec.corrNames.take 8) (p re sc e : ℝ) :
    kfCalc p re sc e n = .num (p * gnielinski re sc e) := by
  simp only [Spec.corrNames, List.take, List.mem_cons, List.not_mem_nil, or_false, not_or] at h
  obtain ⟨h1, h2, h3, h4, h5, h6, h7, h8⟩ := h
  unfold kfCalc
  rw [if_neg h1, if_neg h2, if_neg h3, if_neg h4, if_neg h5, if_neg h6, if_neg h7, if_neg h8]

theorem gnielinski_pos {re sc e : ℝ} (he : e < 1) : 0 < gnielinski re sc e := by
  unfold gnielinski
  have := Real.rpow_nonneg (x := (0.644 * re ^ (0.5 : ℝ) * sc ^ (1 / 3 : ℝ)) ^ 2 +
    (0.037 * re ^ (0.8 : ℝ) * sc / (1 + 2.443 * re ^ (-0.1 : ℝ) * (sc ^ (2 / 3 : ℝ) - 1))) ^ 2) (by positivity) (0.5 : ℝ)
  exact mul_pos (by linarith) (by linarith)

theorem gnielinski_lt {r s sc e : ℝ} (hr : 0 < r) (hrs : r < s) (hsc : 1 ≤ sc) (he : e < 1) :
    gnielinski r sc e < gnielinski s sc e := by
  have hs : 0 < s := hr.trans hrs
  have hc : 0 < sc ^ (1 / 3 : ℝ) := Real.rpow_pos_of_pos (by linarith) _
  have hk : 0 ≤ sc ^ (2 / 3 : ℝ) - 1 := by
    have := Real.one_le_rpow hsc (show (0 : ℝ) ≤ 2 / 3 by norm_num); linarith
  have l1 := pow_lt (show (0 : ℝ) < 0.5 by norm_num) hr hrs
  have t1 := pow_lt (show (0 : ℝ) < 0.8 by norm_num) hr hrs
  have d1 : s ^ (-0.1 : ℝ) < r ^ (-0.1 : ℝ) := Real.rpow_lt_rpow_of_neg hr hrs (by norm_num)
  have pr := Real.rpow_pos_of_pos hr (0.5 : ℝ)
  have pr8 := Real.rpow_pos_of_pos hr (0.8 : ℝ)
  have ps1 := Real.rpow_pos_of_pos hs (-0.1 : ℝ)
  have hl : 0.644 * r ^ (0.5 : ℝ) * sc ^ (1 / 3 : ℝ) < 0.644 * s ^ (0.5 : ℝ) * sc ^ (1 / 3 : ℝ) :=
    mul_lt_mul_of_pos_right (by linarith) hc
  have hden : 1 + 2.443 * s ^ (-0.1 : ℝ) * (sc ^ (2 / 3 : ℝ) - 1) ≤ 1 + 2.443 * r ^ (-0.1 : ℝ) * (sc ^ (2 / 3 : ℝ) - 1) := by
    have := mul_le_mul_of_nonneg_right (show 2.443 * s ^ (-0.1 : ℝ) ≤ 2.443 * r ^ (-0.1 : ℝ) by linarith) hk
    linarith
  have hdpos : 0 < 1 + 2.443 * s ^ (-0.1 : ℝ) * (sc ^ (2 / 3 : ℝ) - 1) := by positivity
  have ht : 0.037 * r ^ (0.8 : ℝ) * sc / (1 + 2.443 * r ^ (-0.1 : ℝ) * (sc ^ (2 / 3 : ℝ) - 1)) ≤
      0.037 * s ^ (0.8 : ℝ) * sc / (1 + 2.443 * s ^ (-0.1 : ℝ) * (sc ^ (2 / 3 : ℝ) - 1)) := by
    apply div_le_div₀ (by positivity) _ hdpos hden
    exact mul_le_mul_of_nonneg_right (by linarith) (by linarith)
  have ht0 : 0 ≤ 0.037 * r ^ (0.8 : ℝ) * sc / (1 + 2.443 * r ^ (-0.1 : ℝ) * (sc ^ (2 / 3 : ℝ) - 1)) :=
    div_nonneg (by positivity) (hdpos.le.trans hden)
  unfold gnielinski
  apply mul_lt_mul_of_pos_right _ (by linarith : 0 < 1 + 1.5 * (1 - e))
  have hsq := Real.rpow_lt_rpow (by positivity)
    (add_lt_add_of_lt_of_le (pow_lt_pow_left₀ hl (by positivity) two_ne_zero) (pow_le_pow_left₀ ht0 ht 2))
    (show (0 : ℝ) < 0.5 by norm_num)
  linarith

/-- C86 for all names but two. Missing from the full statement: Ohashi (a tuple) and Ko (falls with the flow). -/
theorem c86_partial {p sc ebed : ℝ} (hp : 0 < p) (hsc : 1 ≤ sc) (h0 : 0 < ebed) (h1 : ebed < 1) {n : String}
    (h2 : n ≠ "Ohashi et al") (h3 : n ≠ "Ko et al") : Spec.FilmLaw fun re => kfCalc p re sc ebed n := by
  have hs : 0 < sc := by linarith
  have he : 0 < 1 - ebed := by linarith
  have hc3 := Real.rpow_pos_of_pos hs (1 / 3 : ℝ)
  have hcw := Real.rpow_pos_of_pos hs (0.42 : ℝ)
  have hk3 := Real.rpow_pos_of_pos (div_pos he h0) (1 / 3 : ℝ)
  by_cases hn : n ∈ Spec.corrNames.take 8
  · simp only [Spec.corrNames, List.take, List.mem_cons, List.not_mem_nil, or_false] at hn
    rcases hn with rfl | rfl | rfl | rfl | rfl | rfl | rfl | rfl
    · refine ⟨_, fun re hre => ⟨kf_chern _ _ _ _, ?_⟩, fun r s hr hrs => ?_⟩
      · have := Real.rpow_pos_of_pos hre (0.5 : ℝ); positivity
      · have := mul_lt_mul_of_pos_right (pow_lt (show (0 : ℝ) < 0.5 by norm_num) hr hrs) hc3
        exact mul_lt_mul_of_pos_left (by linarith) (by positivity)
    · refine ⟨_, fun re hre => ⟨kf_tan _ _ _ _, ?_⟩, fun r s hr hrs => ?_⟩
      · positivity
      · exact mul_lt_mul_of_pos_left (pow_lt (by norm_num) (mul_pos hr hs) (mul_lt_mul_of_pos_right hrs hs)) (by positivity)
    · refine ⟨_, fun re hre => ⟨kf_wilson _ _ _ _, ?_⟩, fun r s hr hrs => ?_⟩
      · positivity
      · exact mul_lt_mul_of_pos_left (pow_lt (by norm_num) (mul_pos hr hs) (mul_lt_mul_of_pos_right hrs hs)) (by positivity)
    · exact absurd rfl h2
    · refine ⟨_, fun re hre => ⟨kf_williamson _ _ _ _, ?_⟩, fun r s hr hrs => ?_⟩
      · positivity
      · exact mul_lt_mul_of_pos_right (mul_lt_mul_of_pos_left (pow_lt (by norm_num) hr hrs) (by positivity)) hcw
    · exact absurd rfl h3
    · refine ⟨_, fun re hre => ⟨kf_wakau _ _ _ _, ?_⟩, fun r s hr hrs => ?_⟩
      · positivity
      · have := mul_lt_mul_of_pos_right (pow_lt (show (0 : ℝ) < 0.6 by norm_num) hr hrs) hc3
        exact mul_lt_mul_of_pos_left (by linarith) hp
    · refine ⟨_, fun re hre => ⟨kf_kakaoka _ _ _ _, ?_⟩, fun r s hr hrs => ?_⟩
      · positivity
      · exact mul_lt_mul_of_pos_left (mul_lt_mul_of_pos_right (mul_lt_mul_of_pos_left (pow_lt (by norm_num) hr hrs)
          (by positivity)) hc3) hp
  · exact ⟨_, fun re _ => ⟨kf_other hn _ _ _ _, mul_pos hp (gnielinski_pos h1)⟩,
      fun r s hr hrs => mul_lt_mul_of_pos_left (gnielinski_lt hr hrs hsc h1) hp⟩

/-- C86: the coefficient of Ko et al falls with the flow. -/
theorem c86_ko {p sc ebed r s : ℝ} (hp : 0 < p) (hsc : 0 < sc) (h0 : 0 < ebed) (hr : 0 < r) (hrs : r < s) :
    ∃ a b, kfCalc p r sc ebed "Ko et al" = .num a ∧ kfCalc p s sc ebed "Ko et al" = .num b ∧ b < a := by
  refine ⟨_, _, kf_ko _ _ _ _, kf_ko _ _ _ _, mul_lt_mul_of_pos_left ?_ hp⟩
  have hc3 := Real.rpow_pos_of_pos hsc (1 / 3 : ℝ)
  have := Real.rpow_pos_of_pos hr (0.36 : ℝ)
  exact div_lt_div_of_pos_left (by norm_num) (by positivity)
    (mul_lt_mul_of_pos_right (mul_lt_mul_of_pos_left (pow_lt (by norm_num) hr hrs) h0) hc3)

/-- C86: that of Ohashi et al is a tuple, and its values drop at both ends of the middle range. -/
theorem c86_ohashi {p sc ebed : ℝ} (hsc : 0 < sc) :
    (∀ re, ∃ a, kfCalc p re sc ebed "Ohashi et al" = .tuple a) ∧
    ohashi 5.8 sc < ohashi 5.7 sc ∧ ohashi 500 sc < ohashi 490 sc := by
  have hc := Real.rpow_pos_of_pos hsc (1 / 3 : ℝ)
  refine ⟨fun re => ⟨_, kf_ohashi _ _ _ _⟩, ?_, ?_⟩
  · unfold ohashi
    rw [if_neg (by norm_num), if_pos (by norm_num), if_pos (by norm_num)]
    have h1 : (2 : ℝ) ≤ 5.7 ^ (0.4 : ℝ) := by
      rw [show (0.4 : ℝ) = 2 * (1 / 5) by norm_num, Real.rpow_mul (by norm_num)]
      rw [show (2 : ℝ) = (32 : ℝ) ^ (1 / 5 : ℝ) by
        rw [show (32 : ℝ) = 2 ^ (5 : ℝ) by norm_num, ← Real.rpow_mul (by norm_num)]; norm_num]
      apply Real.rpow_le_rpow (by positivity) _ (by norm_num)
      rw [show ((32 : ℝ) ^ (1 / 5 : ℝ)) = 2 by
        rw [show (32 : ℝ) = 2 ^ (5 : ℝ) by norm_num, ← Real.rpow_mul (by norm_num)]; norm_num]
      norm_num
    have h2 : (5.8 : ℝ) ^ (0.5 : ℝ) < 2.41 := by
      rw [show (0.5 : ℝ) = 1 / 2 by norm_num, ← Real.sqrt_eq_rpow]
      rw [Real.sqrt_lt' (by norm_num)]; norm_num
    have : 1.21 * (5.8 : ℝ) ^ (0.5 : ℝ) < 1.58 * 5.7 ^ (0.4 : ℝ) := by linarith
    have := mul_lt_mul_of_pos_right this hc
    linarith
  · unfold ohashi
    rw [if_neg (by norm_num), if_neg (by norm_num), if_neg (by norm_num), if_pos (by norm_num)]
    have h1 : (22 : ℝ) ≤ 490 ^ (0.5 : ℝ) := by
      rw [show (0.5 : ℝ) = 1 / 2 by norm_num, ← Real.sqrt_eq_rpow]
      exact Real.le_sqrt_of_sq_le (by norm_num)
    have h2 : (500 : ℝ) ^ (0.6 : ℝ) < 41.7 := by
      have h5 : ((500 : ℝ) ^ (0.6 : ℝ)) ^ 5 = 500 ^ 3 := by
        rw [← Real.rpow_natCast, ← Real.rpow_mul (by norm_num), ← Real.rpow_natCast]; norm_num
      refine lt_of_pow_lt_pow_left₀ 5 (by norm_num) ?_
      rw [h5]; norm_num
    have : 0.59 * (500 : ℝ) ^ (0.6 : ℝ) < 1.21 * 490 ^ (0.5 : ℝ) := by linarith
    have := mul_lt_mul_of_pos_right this hc
    linarith

/-- C86 is false. -/
theorem c86_false : ¬ C86 := by
  intro h
  obtain ⟨g, h1, -⟩ := h 1 1000 0.4 one_pos (by norm_num) (by norm_num) (by norm_num) "Ohashi et al"
    (by simp [Spec.corrNames])
  have := (h1 1 one_pos).1
  beta_reduce at this
  rw [kf_ohashi] at this
  cases this

example : Spec.FilmLaw fun re => kfCalc (6e-6 / 0.1) re 1600 0.42 "Chern and Chien" :=
  c86_partial (by norm_num) (by norm_num) (by norm_num) (by norm_num) (by decide) (by decide)

/-- C86: below a Schmidt number of one Gnielinski's turbulent term can grow without bound: its denominator has a
zero. -/
theorem c86_schmidt : ∃ re : ℝ, 0 < re ∧ 1 + 2.443 * re ^ (-0.1 : ℝ) * ((1 / 8 : ℝ) ^ (2 / 3 : ℝ) - 1) = 0 := by
  have h8 : (1 / 8 : ℝ) ^ (2 / 3 : ℝ) = 1 / 4 := by
    rw [show (1 / 8 : ℝ) = (1 / 2) ^ (3 : ℝ) by norm_num, ← Real.rpow_mul (by norm_num)]; norm_num
  refine ⟨(1 / (2.443 * (3 / 4))) ^ (-10 : ℝ), by positivity, ?_⟩
  rw [← Real.rpow_mul (by positivity), h8]
  norm_num

/-! ### C120 -/

theorem visc_exponent_lt {a b : ℝ} (ha : 0 < a) (hab : a < b) :
    -24.71 + 4209 / b + 0.04527 * b - 3.376e-5 * b ^ 2 < -24.71 + 4209 / a + 0.04527 * a - 3.376e-5 * a ^ 2 := by
  have hb : 0 < b := ha.trans hab
  have e : (-24.71 + 4209 / a + 0.04527 * a - 3.376e-5 * a ^ 2) -
      (-24.71 + 4209 / b + 0.04527 * b - 3.376e-5 * b ^ 2) =
      (b - a) / (a * b) * (4209 - 0.04527 * (a * b) + 3.376e-5 * (a + b) * (a * b)) := by
    field_simp; ring
  have hs : 2 * Real.sqrt (a * b) ≤ a + b := by
    have h1 : Real.sqrt (a * b) ^ 2 = a * b := Real.sq_sqrt (by positivity)
    have h2 := Real.sqrt_nonneg (a * b)
    nlinarith [sq_nonneg (a - b), sq_nonneg (a + b - 2 * Real.sqrt (a * b))]
  set q := Real.sqrt (a * b) with hq
  have hq2 : a * b = q ^ 2 := (Real.sq_sqrt (by positivity)).symm
  have hq0 : 0 < q := Real.sqrt_pos.2 (by positivity)
  have hpos : 0 < 4209 - 0.04527 * (a * b) + 3.376e-5 * (a + b) * (a * b) := by
    have : 3.376e-5 * (2 * q) * q ^ 2 ≤ 3.376e-5 * (a + b) * (a * b) := by
      rw [hq2]; exact mul_le_mul_of_nonneg_right (by linarith) (by positivity)
    rw [hq2] at *
    nlinarith [mul_nonneg (sq_nonneg (q - 447)) (by linarith : (0 : ℝ) ≤ 2 * q + 447)]
  have := mul_pos (div_pos (sub_pos.2 hab) (mul_pos ha hb)) hpos
  linarith

/-- C120. Viscosity is positive and falls with temperature, at every temperature above absolute zero. -/
theorem c120_viscosity : (∀ t, 0 < waterVisc t) ∧
    ∀ s t, -273.15 < s → s < t → waterVisc t < waterVisc s := by
  refine ⟨fun t => by unfold waterVisc; positivity, fun s t hs hst => ?_⟩
  unfold waterVisc
  exact div_lt_div_of_pos_right (Real.exp_lt_exp.2 (visc_exponent_lt (by linarith) (by linarith))) (by norm_num)

/-- The slope of the density polynomial. -/
def densSlope (t : ℝ) : ℝ := 8.97665 - 24.551 * t + 22.37532 * t ^ 2 - 6.95396 * t ^ 3

theorem densSlope_lt {a b : ℝ} (hab : a < b) : densSlope b < densSlope a := by
  have e : densSlope a - densSlope b =
      (b - a) * (24.551 - 22.37532 * (a + b) + 6.95396 * (a ^ 2 + a * b + b ^ 2)) := by unfold densSlope; ring
  have : 0 < 24.551 - 22.37532 * (a + b) + 6.95396 * (a ^ 2 + a * b + b ^ 2) := by
    nlinarith [sq_nonneg (a + b - 2.14), sq_nonneg (a - b)]
  nlinarith [mul_pos (sub_pos.2 hab) this]

/-- The polynomial. -/
def densPoly (t : ℝ) : ℝ := -1.41768 + 8.97665 * t - 12.2755 * t ^ 2 + 7.45844 * t ^ 3 - 1.73849 * t ^ 4

theorem densPoly_deriv (t : ℝ) : HasDerivAt densPoly (densSlope t) t := by
  have h := ((((hasDerivAt_id t).const_mul 8.97665).const_add (-1.41768)).sub
    ((hasDerivAt_pow 2 t).const_mul 12.2755)).add ((hasDerivAt_pow 3 t).const_mul 7.45844) |>.sub
    ((hasDerivAt_pow 4 t).const_mul 1.73849)
  refine (h.congr_deriv ?_).congr_of_eventuallyEq (Filter.Eventually.of_forall fun x => ?_)
  · simp only [densSlope]; norm_num; ring
  · simp [densPoly]

/-- C120. Water is densest at one temperature, between 3.5 and 3.7 °C: below it the density grows strictly with
temperature, above it falls strictly, at any temperature whatever. -/
theorem c120_densest : ∃ T, 3.5 < T ∧ T < 3.7 ∧ (∀ s t, s < t → t ≤ T → waterDens s < waterDens t) ∧
    ∀ s t, T ≤ s → s < t → waterDens t < waterDens s := by
  have hcont : Continuous densSlope := by unfold densSlope; fun_prop
  obtain ⟨t0, ⟨h1, h2⟩, h0⟩ := intermediate_value_Ioo' (a := (3.5 + 273.15) / 324.65) (b := (3.7 + 273.15) / 324.65)
    (by norm_num) hcont.continuousOn (show (0 : ℝ) ∈ Set.Ioo (densSlope ((3.7 + 273.15) / 324.65))
      (densSlope ((3.5 + 273.15) / 324.65)) by constructor <;> norm_num [densSlope])
  have hd : ∀ T, waterDens T = 0.98396 * densPoly ((T + 273.15) / 324.65) := fun T => rfl
  have inc : StrictMonoOn densPoly (Set.Iic t0) := by
    apply strictMonoOn_of_deriv_pos (convex_Iic _) (fun x _ => (densPoly_deriv x).continuousAt.continuousWithinAt)
    intro x hx
    rw [interior_Iic] at hx
    rw [(densPoly_deriv x).deriv, ← h0]; exact densSlope_lt hx
  have dec : StrictAntiOn densPoly (Set.Ici t0) := by
    apply strictAntiOn_of_deriv_neg (convex_Ici _) (fun x _ => (densPoly_deriv x).continuousAt.continuousWithinAt)
    intro x hx
    rw [interior_Ici] at hx
    rw [(densPoly_deriv x).deriv, ← h0]; exact densSlope_lt hx
  refine ⟨t0 * 324.65 - 273.15, ?_, ?_, ?_, ?_⟩
  · rw [div_lt_iff₀ (by norm_num)] at h1; linarith
  · rw [lt_div_iff₀ (by norm_num)] at h2; linarith
  · intro s t hst htT
    rw [hd, hd]
    have ht : (t + 273.15) / 324.65 ≤ t0 := by rw [div_le_iff₀ (by norm_num)]; linarith
    have hs : (s + 273.15) / 324.65 < (t + 273.15) / 324.65 := div_lt_div_of_pos_right (by linarith) (by norm_num)
    exact mul_lt_mul_of_pos_left (inc (Set.mem_Iic.2 (hs.le.trans ht)) ht hs) (by norm_num)
  · intro s t hsT hst
    rw [hd, hd]
    have hs : t0 ≤ (s + 273.15) / 324.65 := by rw [le_div_iff₀ (by norm_num)]; linarith
    have ht : (s + 273.15) / 324.65 < (t + 273.15) / 324.65 := div_lt_div_of_pos_right (by linarith) (by norm_num)
    exact mul_lt_mul_of_pos_left (dec hs (Set.mem_Ici.2 (hs.trans ht.le)) ht) (by norm_num)

/-- C120. From 0 to 100 °C the density is between 0.958 and 1.0001 g/cm³. -/
theorem c120_density {t : ℝ} (h0 : 0 ≤ t) (h1 : t ≤ 100) : 0.958 < waterDens t ∧ waterDens t < 1.0001 := by
  obtain ⟨T, hT1, hT2, hi, hd⟩ := c120_densest
  have e0 : 0.958 < waterDens 0 := by norm_num [waterDens]
  have e1 : 0.958 < waterDens 100 := by norm_num [waterDens]
  constructor
  · rcases le_total t T with h | h
    · rcases h0.eq_or_lt with rfl | h0
      · exact e0
      · exact e0.trans (hi 0 t h0 h)
    · rcases h1.eq_or_lt with rfl | h1
      · exact e1
      · exact e1.trans (hd t 100 h h1)
  · have key : ∀ x : ℝ, 0 ≤ x → x ≤ 2 → densPoly x < 1.0001 / 0.98396 := by
      intro x hx0 hx2
      have e : densPoly x = densPoly 0.85245 + densSlope 0.85245 * (x - 0.85245) - (x - 0.85245) ^ 2 *
          (12.2755 - 7.45844 * (x + 2 * 0.85245) + 1.73849 * (x ^ 2 + 2 * 0.85245 * x + 3 * 0.85245 ^ 2)) := by
        unfold densPoly densSlope; ring
      have hq : 0 ≤ 12.2755 - 7.45844 * (x + 2 * 0.85245) + 1.73849 * (x ^ 2 + 2 * 0.85245 * x + 3 * 0.85245 ^ 2) := by
        nlinarith [sq_nonneg (x - 1.293)]
      have hm := mul_nonneg (sq_nonneg (x - 0.85245)) hq
      have h1 : densPoly 0.85245 < 1.016341 := by norm_num [densPoly]
      have h2 : 0 < densSlope 0.85245 := by norm_num [densSlope]
      have h3 : densSlope 0.85245 < 0.00002 := by norm_num [densSlope]
      have h4 : densSlope 0.85245 * (x - 0.85245) ≤ 0.00002 * 2 := by nlinarith
      have h5 : (1.01639 : ℝ) < 1.0001 / 0.98396 := by norm_num
      linarith
    have := key ((t + 273.15) / 324.65) (by positivity) (by rw [div_le_iff₀ (by norm_num)]; linarith)
    rw [lt_div_iff₀ (by norm_num)] at this
    have e : waterDens t = densPoly ((t + 273.15) / 324.65) * 0.98396 := by rw [mul_comm]; rfl
    rw [e]; exact this

example : 0.958 < waterDens 25 ∧ waterDens 25 < 1.0001 := c120_density (by norm_num) (by norm_num)
example : waterVisc 25 < waterVisc 5 := c120_viscosity.2 5 25 (by norm_num) (by norm_num)

/-! ### C121 -/

/-- C121. Hayduk and Laudie's diffusivity in the resin package is the one of the carbon package. -/
theorem c121_diffusivity {mv temp : ℝ} (h : 0 < mv) : haydukLaudie mv temp = difl (waterVisc temp) mv := by
  have h1 : 0 < waterVisc temp * 100 := mul_pos (c120_viscosity.1 temp) (by norm_num)
  unfold haydukLaudie difl
  rw [Real.rpow_neg h1.le, Real.rpow_neg h.le, div_eq_mul_inv, mul_inv, mul_assoc]

/-- C121. Both packages give the same film coefficient: that of `simple_Gnielinski` is that of
`kf_calc(corr='Chern and Chien')` at the Reynolds and Schmidt numbers of the carbon column. -/
theorem c121_film {rb v ebed temp dl : ℝ} :
    kfCalc (dl / (2 * rb)) (gacRe rb v (waterDens temp) ebed (waterVisc temp))
      (waterVisc temp / (waterDens temp * dl)) ebed "Chern and Chien" =
      .num (simpleGnielinski rb v ebed temp dl).1 := by
  rw [kf_chern]
  congr 1
  simp only [simpleGnielinski, gacRe]
  rw [show 2 * rb * v * waterDens temp / (ebed * waterVisc temp) =
    v / ebed * (2 * rb) * (waterDens temp / waterVisc temp) by rw [mul_comm (2 * rb)]; field_simp,
    show waterVisc temp / (waterDens temp * dl) = waterVisc temp / waterDens temp / dl from div_mul_eq_div_div _ _ _,
    show (0.5 : ℝ) = 1 / 2 by norm_num]
  ring

/-- C121. So the coefficient a carbon column uses for a compound of molar volume `mv` is the estimate of the resin
package with the same water, bed and compound. -/
theorem c121_column {rb v ebed temp mv : ℝ} (h : 0 < mv) :
    kfCorr (waterVisc temp) (waterDens temp) mv rb (gacRe rb v (waterDens temp) ebed (waterVisc temp)) ebed =
      (simpleGnielinski rb v ebed temp (haydukLaudie mv temp)).1 := by
  have := c121_film (rb := rb) (v := v) (ebed := ebed) (temp := temp) (dl := haydukLaudie mv temp)
  rw [kf_chern, KfVal.num.injEq] at this
  rw [← this, c121_diffusivity h]
  rfl

/-- C121. Bounds: never below the value for a bead in still water, `dl / rb`, increasing with the flow. -/
theorem c121_flow {rb ebed temp dl v w : ℝ} (hr : 0 < rb) (he0 : 0 < ebed) (he1 : ebed < 1) (ht0 : 0 ≤ temp)
    (ht1 : temp ≤ 100) (hd : 0 < dl) (hv : 0 < v) (hvw : v < w) :
    dl / rb < (simpleGnielinski rb v ebed temp dl).1 ∧
    (simpleGnielinski rb v ebed temp dl).1 < (simpleGnielinski rb w ebed temp dl).1 := by
  have hrho : 0 < waterDens temp := by linarith [(c120_density ht0 ht1).1]
  have hmu := c120_viscosity.1 temp
  have hsc : 0 < waterVisc temp / waterDens temp / dl := by positivity
  have hc := Real.rpow_pos_of_pos hsc (1 / 3 : ℝ)
  have hre : v / ebed * (2 * rb) * (waterDens temp / waterVisc temp) <
      w / ebed * (2 * rb) * (waterDens temp / waterVisc temp) :=
    mul_lt_mul_of_pos_right (mul_lt_mul_of_pos_right (div_lt_div_of_pos_right hvw he0) (by positivity)) (by positivity)
  have hre0 : 0 < v / ebed * (2 * rb) * (waterDens temp / waterVisc temp) := by positivity
  have hp := pow_lt (show (0 : ℝ) < 1 / 2 by norm_num) hre0 hre
  have hp0 := Real.rpow_pos_of_pos hre0 (1 / 2 : ℝ)
  have hm := mul_lt_mul_of_pos_right hp hc
  have hm0 := mul_pos hp0 hc
  simp only [simpleGnielinski]
  generalize (v / ebed * (2 * rb) * (waterDens temp / waterVisc temp)) ^ (1 / 2 : ℝ) = A at *
  generalize (w / ebed * (2 * rb) * (waterDens temp / waterVisc temp)) ^ (1 / 2 : ℝ) = B at *
  generalize (waterVisc temp / waterDens temp / dl) ^ (1 / 3 : ℝ) = C at *
  constructor
  · rw [div_lt_div_iff₀ hr (by positivity)]
    have : 2 < (2 + 0.644 * A * C) * (1 + 1.5 * (1 - ebed)) := by nlinarith
    nlinarith [mul_pos hd hr]
  · apply div_lt_div_of_pos_right _ (by positivity)
    exact mul_lt_mul_of_pos_right (mul_lt_mul_of_pos_right (by linarith) (by linarith)) hd

/-- C121. A warning is printed exactly when the Reynolds number (interstitial velocity, bead diameter) is not
between 1 and 100, the other when the Schmidt number is not between 0.6 and 10000. -/
theorem c121_warnings {rb v ebed temp dl : ℝ} :
    ((simpleGnielinski rb v ebed temp dl).2.1 = true ↔
      ¬ (1 < (v / ebed) * (2 * rb) * waterDens temp / waterVisc temp ∧
        (v / ebed) * (2 * rb) * waterDens temp / waterVisc temp < 100)) ∧
    ((simpleGnielinski rb v ebed temp dl).2.2 = true ↔
      ¬ (6 / 10 < waterVisc temp / (waterDens temp * dl) ∧ waterVisc temp / (waterDens temp * dl) < 10000)) := by
  simp only [simpleGnielinski, decide_eq_true_eq]
  rw [div_mul_eq_div_div, mul_div_assoc]
  norm_num

example : (1e-5 : ℝ) / 0.034 < (simpleGnielinski 0.034 0.272 0.35 23 1e-5).1 :=
  (c121_flow (w := 1) (by norm_num) (by norm_num) (by norm_num) (by norm_num) (by norm_num) (by norm_num) (by norm_num)
    (by norm_num)).1

/-! ### C122 -/

/-- C122. Both diffusivities are positive, fall with the molar volume and grow with temperature. -/
theorem c122_hayduk {m n s t : ℝ} (hm : 0 < m) (hmn : m < n) (hs : -273.15 < s) (hst : s < t) :
    0 < haydukLaudie m s ∧ haydukLaudie n s < haydukLaudie m s ∧ haydukLaudie m s < haydukLaudie m t := by
  have hvs := c120_viscosity.1 s
  have hvt := c120_viscosity.1 t
  have hlt := c120_viscosity.2 s t hs hst
  have p1 := Real.rpow_pos_of_pos (mul_pos hvs (show (0 : ℝ) < 100 by norm_num)) (-1.14)
  have p2 := Real.rpow_pos_of_pos hm (-0.589)
  have l1 : n ^ (-0.589 : ℝ) < m ^ (-0.589 : ℝ) := Real.rpow_lt_rpow_of_neg hm hmn (by norm_num)
  have l2 : (waterVisc s * 100) ^ (-1.14 : ℝ) < (waterVisc t * 100) ^ (-1.14 : ℝ) :=
    Real.rpow_lt_rpow_of_neg (by positivity) (by linarith) (by norm_num)
  unfold haydukLaudie
  exact ⟨by positivity, mul_lt_mul_of_pos_left l1 (by positivity),
    mul_lt_mul_of_pos_right (mul_lt_mul_of_pos_left l2 (by norm_num)) p2⟩

theorem c122_wilke {m n s t mw psi : ℝ} (hm : 0 < m) (hmn : m < n) (hs : -273.15 < s) (hst : s < t) (hmw : 0 < mw)
    (hpsi : 0 < psi) : 0 < wilkeChang m s mw psi ∧ wilkeChang n s mw psi < wilkeChang m s mw psi ∧
      wilkeChang m s mw psi < wilkeChang m t mw psi := by
  have hvs := c120_viscosity.1 s
  have hvt := c120_viscosity.1 t
  have hlt := c120_viscosity.2 s t hs hst
  have hq := Real.sqrt_pos.2 (mul_pos hpsi hmw)
  have p2 := Real.rpow_pos_of_pos hm (-0.6)
  have l1 : n ^ (-0.6 : ℝ) < m ^ (-0.6 : ℝ) := Real.rpow_lt_rpow_of_neg hm hmn (by norm_num)
  have hs0 : 0 < s + 273.15 := by linarith
  unfold wilkeChang
  refine ⟨by positivity, div_lt_div_of_pos_right (mul_lt_mul_of_pos_left l1 (by positivity)) (by positivity), ?_⟩
  apply div_lt_div₀ (mul_lt_mul_of_pos_right (mul_lt_mul_of_pos_left (by linarith) (by positivity)) p2) (by linarith)
    (by have : 0 < t + 273.15 := by linarith
        positivity) (by positivity)

/-- C122. Stokes-Einstein scaling: Wilke and Chang's diffusivity times viscosity over absolute temperature depends on
the compound alone. -/
theorem c122_stokes {m s t mw psi : ℝ} (hs : -273.15 < s) (ht : -273.15 < t) :
    wilkeChang m s mw psi * waterVisc s / (s + 273.15) = wilkeChang m t mw psi * waterVisc t / (t + 273.15) := by
  have hvs := (c120_viscosity.1 s).ne'
  have hvt := (c120_viscosity.1 t).ne'
  have h1 : s + 273.15 ≠ 0 := by linarith
  have h2 : t + 273.15 ≠ 0 := by linarith
  unfold wilkeChang
  field_simp

/-- C122. The two correlations in their usual form: viscosity in centipoise, volume in mL/mol, cm²/s. -/
theorem c122_values {m mw psi mu : ℝ} {t : ℝ} (hmu : mu = 100 * waterVisc t) (hm : 0 < m) :
    haydukLaudie m t * mu ^ (1.14 : ℝ) * m ^ (0.589 : ℝ) = 13.26 / 100000 ∧
    wilkeChang m t mw psi * mu * m ^ (0.6 : ℝ) = 7.4 / 10 ^ 8 * Real.sqrt (psi * mw) * (t + 273.15) := by
  have hvt := c120_viscosity.1 t
  have h0 : 0 < mu := by rw [hmu]; positivity
  have e1 : mu ^ (-1.14 : ℝ) * mu ^ (1.14 : ℝ) = 1 := by rw [← Real.rpow_add h0]; norm_num
  have e2 : m ^ (-0.589 : ℝ) * m ^ (0.589 : ℝ) = 1 := by rw [← Real.rpow_add hm]; norm_num
  have e3 : m ^ (-0.6 : ℝ) * m ^ (0.6 : ℝ) = 1 := by rw [← Real.rpow_add hm]; norm_num
  unfold haydukLaudie wilkeChang
  rw [show waterVisc t * 100 = mu by rw [hmu]; ring]
  constructor
  · linear_combination (13.26e-5 * (m ^ (-0.589 : ℝ) * m ^ (0.589 : ℝ))) * e1 + 13.26e-5 * e2
  · rw [div_mul_cancel₀ _ h0.ne']
    linear_combination (7.4e-8 * Real.sqrt (psi * mw) * (t + 273.15)) * e3

example : haydukLaudie 237.3 25 < haydukLaudie 162.3 25 :=
  (c122_hayduk (t := 26) (by norm_num) (by norm_num) (by norm_num) (by norm_num)).2.1

end
end WTM
