import Mathlib.Tactic
import Mathlib.Analysis.SpecialFunctions.Trigonometric.Deriv
import Mathlib.Analysis.SpecialFunctions.Trigonometric.Bounds
import Mathlib.Analysis.SpecialFunctions.Trigonometric.ArctanDeriv
import Mathlib.Analysis.SpecialFunctions.ExpDeriv
import Mathlib.Analysis.Calculus.MeanValue
import Mathlib.Analysis.Real.Pi.Bounds
import Mathlib.Topology.Order.IntermediateValue
import Verif.Model.Pac
import Verif.Props.Pac

/-! C77, C78, C81, C112, C115: analytical solutions for powdered carbon. -/
set_option autoImplicit false
namespace WTM
open BigOperators Filter Topology

variable {m : ℕ}

/-! ### C77 -/

theorem filmA_pos (p : Pac m) (i : Fin m) (hE : 0 < p.epsilon) (hE1 : p.epsilon ≤ 1) (hh : 0 < p.hrt)
    (hr : 0 < p.radius) (hk : 0 ≤ (p.comp i).kf) : 0 < p.filmA i := by
  unfold Pac.filmA
  have : 0 ≤ 1 - p.epsilon := by linarith
  positivity

/-- C77. The film solution starts at `C0`. -/
theorem c77_start (p : Pac m) (i : Fin m) (ha : p.filmA i ≠ 0) : p.filmSol i 0 = (p.comp i).C0 := by
  unfold Pac.filmSol
  simp only [mul_zero, Real.exp_zero, div_one]
  field_simp
  ring

/-- C77. It satisfies the balance of a stirred tank fed at `C0` and stripped by the film, at all times. -/
theorem c77_ode (p : Pac m) (i : Fin m) (ha : p.filmA i ≠ 0) (t : ℝ) :
    HasDerivAt (p.filmSol i)
      (((p.comp i).C0 - p.filmSol i t) / (p.epsilon * p.hrt) -
        3 * (p.comp i).kf * (1 - p.epsilon) / (p.radius * p.epsilon) * p.filmSol i t) t := by
  have h1 : HasDerivAt (fun t => Real.exp (-(p.filmA i * t))) (Real.exp (-(p.filmA i * t)) * -(p.filmA i)) t := by
    have : HasDerivAt (fun t : ℝ => -(p.filmA i * t)) (-(p.filmA i)) t := by
      simpa using ((hasDerivAt_id t).const_mul (p.filmA i)).fun_neg
    exact this.exp
  have h2 := ((h1.const_mul (p.filmA i * (p.comp i).C0 - p.filmB i)).add_const (p.filmB i)).div_const (p.filmA i)
  have e : p.filmSol i = fun t =>
      ((p.filmA i * (p.comp i).C0 - p.filmB i) * Real.exp (-(p.filmA i * t)) + p.filmB i) / p.filmA i := by
    funext s
    unfold Pac.filmSol
    rw [Real.exp_neg, div_eq_mul_inv (p.filmA i * (p.comp i).C0 - p.filmB i)]
  rw [e]
  refine h2.congr_deriv ?_
  set E := Real.exp (-(p.filmA i * t))
  have hab : ∀ x : ℝ, ((p.comp i).C0 - x) / (p.epsilon * p.hrt) -
      3 * (p.comp i).kf * (1 - p.epsilon) / (p.radius * p.epsilon) * x = p.filmB i - p.filmA i * x := by
    intro x; unfold Pac.filmA Pac.filmB; ring
  rw [hab]
  field_simp
  ring

/-- C77. It never increases and stays at or above its limit. -/
theorem c77_monotone (p : Pac m) (i : Fin m) (hE : 0 < p.epsilon) (hE1 : p.epsilon ≤ 1) (hh : 0 < p.hrt)
    (hr : 0 < p.radius) (hk : 0 ≤ (p.comp i).kf) (hC : 0 ≤ (p.comp i).C0) :
    Antitone (p.filmSol i) ∧ (∀ t, p.filmB i / p.filmA i ≤ p.filmSol i t) ∧
      (0 < (p.comp i).kf → p.epsilon < 1 → 0 < (p.comp i).C0 → StrictAnti (p.filmSol i)) := by
  have ha := filmA_pos p i hE hE1 hh hr hk
  have hc : p.filmA i * (p.comp i).C0 - p.filmB i =
      3 * (p.comp i).kf * (1 - p.epsilon) / (p.radius * p.epsilon) * (p.comp i).C0 := by
    unfold Pac.filmA Pac.filmB; ring
  have h1 : 0 ≤ 1 - p.epsilon := by linarith
  have hc0 : 0 ≤ p.filmA i * (p.comp i).C0 - p.filmB i := by rw [hc]; positivity
  refine ⟨fun s t hst => ?_, fun t => ?_, fun hk' hE' hC' s t hst => ?_⟩
  · unfold Pac.filmSol
    gcongr
  · unfold Pac.filmSol
    gcongr
    have := div_nonneg hc0 (Real.exp_pos (p.filmA i * t)).le
    linarith
  · have h2 : 0 < 1 - p.epsilon := by linarith
    have hc1 : 0 < p.filmA i * (p.comp i).C0 - p.filmB i := by rw [hc]; positivity
    unfold Pac.filmSol
    gcongr

/-- C77. It tends to `b/a`, the steady state of the balance. -/
theorem c77_limit (p : Pac m) (i : Fin m) (ha : 0 < p.filmA i) :
    Tendsto (p.filmSol i) atTop (𝓝 (p.filmB i / p.filmA i)) := by
  have h1 : Tendsto (fun t => Real.exp (p.filmA i * t)) atTop atTop :=
    Real.tendsto_exp_atTop.comp (tendsto_id.const_mul_atTop ha)
  have h2 := ((h1.const_div_atTop (p.filmA i * (p.comp i).C0 - p.filmB i)).add_const (p.filmB i)).div_const
    (p.filmA i)
  rw [zero_add] at h2
  exact h2

/-- The steady state balances feed and film transfer. -/
theorem c77_steady (p : Pac m) (i : Fin m) (ha : p.filmA i ≠ 0) :
    ((p.comp i).C0 - p.filmB i / p.filmA i) / (p.epsilon * p.hrt) =
      3 * (p.comp i).kf * (1 - p.epsilon) / (p.radius * p.epsilon) * (p.filmB i / p.filmA i) := by
  have : p.filmA i * (p.filmB i / p.filmA i) = p.filmB i := by field_simp
  have h2 : ((p.comp i).C0 - p.filmB i / p.filmA i) / (p.epsilon * p.hrt) -
      3 * (p.comp i).kf * (1 - p.epsilon) / (p.radius * p.epsilon) * (p.filmB i / p.filmA i) =
      p.filmB i - p.filmA i * (p.filmB i / p.filmA i) := by
    unfold Pac.filmA Pac.filmB; ring
  rw [this] at h2
  linarith

example : 0 < exPac.filmA 0 ∧ 0 < exPac.epsilon ∧ exPac.epsilon < 1 := by
  have hE := exPac_eps
  refine ⟨filmA_pos _ _ ?_ ?_ ?_ ?_ ?_, ?_, ?_⟩
  · rw [hE]; norm_num
  · rw [hE]; norm_num
  · show (0 : ℝ) < 3600; norm_num
  · show (0 : ℝ) < 0.001; norm_num
  · show (0 : ℝ) ≤ 0.01; norm_num
  · rw [hE]; norm_num
  · rw [hE]; norm_num

/-! ### C78 -/

/-- C78. The film uptake starts at 0, increases strictly, lies in `[0, 1)` from the start on, and tends to 1. -/
theorem c78_fraction {rb kL Vw Vx k : ℝ} (hr : 0 < rb) (hL : 0 < kL) (hw : 0 < Vw) (hx : 0 ≤ Vx) (hk : 0 < k) :
    helfferich 0 rb kL Vw Vx k = 0 ∧ StrictMono (fun t => helfferich t rb kL Vw Vx k) ∧
      (∀ t, 0 ≤ t → 0 ≤ helfferich t rb kL Vw Vx k) ∧ (∀ t, helfferich t rb kL Vw Vx k < 1) ∧
      Tendsto (fun t => helfferich t rb kL Vw Vx k) atTop (𝓝 1) := by
  have h0 : helfferich 0 rb kL Vw Vx k = 0 := by simp [helfferich]
  have hr' : 0 < (k * Vx / Vw + 1) * (3 * kL / rb / k) := by positivity
  have e : ∀ t, helfferich t rb kL Vw Vx k =
      1 - Real.exp (-((k * Vx / Vw + 1) * (3 * kL / rb / k) * t)) := by
    intro t; unfold helfferich; congr 2; ring
  have hm : StrictMono (fun t => helfferich t rb kL Vw Vx k) := by
    intro s t hst
    simp only [e]
    have : (k * Vx / Vw + 1) * (3 * kL / rb / k) * s < (k * Vx / Vw + 1) * (3 * kL / rb / k) * t :=
      mul_lt_mul_of_pos_left hst hr'
    have := Real.exp_lt_exp.2 (neg_lt_neg this)
    linarith
  refine ⟨h0, hm, fun t ht => ?_, fun t => ?_, ?_⟩
  · rw [← h0]; exact hm.monotone ht
  · rw [e]; have := Real.exp_pos (-((k * Vx / Vw + 1) * (3 * kL / rb / k) * t)); linarith
  · simp only [e]
    have h1 : Tendsto (fun t => Real.exp (-((k * Vx / Vw + 1) * (3 * kL / rb / k) * t))) atTop (𝓝 0) :=
      Real.tendsto_exp_neg_atTop_nhds_zero.comp (tendsto_id.const_mul_atTop hr')
    simpa using h1.const_sub 1

example : (0 : ℝ) < 0.001 ∧ (0 : ℝ) < 0.01 ∧ (0 : ℝ) < 1 ∧ (0 : ℝ) ≤ 20 / (0.5 * 1e6) ∧ (0 : ℝ) < 5e4 := by
  norm_num

/-! ### C115 -/

/-- C115. The Helfferich curve starts at 1 and satisfies the balance of a batch of one litre with film
transfer to a carbon of linear isotherm: the rate is the film coefficient times the outer surface of the
dose, times the water concentration minus the one in equilibrium with what the carbon took up. -/
theorem c115_balance {dose rho Kd rb kL : ℝ} (hd : 0 < dose) (hrho : 0 < rho) (hK : 0 < Kd) (hr : 0 < rb) (t : ℝ) :
    helfCurve dose rho Kd rb kL 0 = 1 ∧
    HasDerivAt (helfCurve dose rho Kd rb kL)
      (-(kL * (3 / rb * (dose / (rho * 1e6)))) * (helfCurve dose rho Kd rb kL t -
        (1 - helfCurve dose rho Kd rb kL t) / (dose / (rho * 1e6)) / Kd)) t := by
  set V := dose / (rho * 1e6) with hV
  have hVp : 0 < V := by rw [hV]; positivity
  have eA : pacA dose rho Kd = 1 / V / Kd := rfl
  constructor
  · simp [helfCurve, helfferich]
  · have e : helfCurve dose rho Kd rb kL = fun t =>
        1 - (1 - Real.exp ((Kd * V / 1 + 1) * (-3 * kL / rb / Kd * t))) * pacDepl (pacA dose rho Kd) := by
      funext s; rfl
    have h1 : HasDerivAt (fun t : ℝ => (Kd * V / 1 + 1) * (-3 * kL / rb / Kd * t))
        ((Kd * V / 1 + 1) * (-3 * kL / rb / Kd)) t := by
      simpa using ((hasDerivAt_id t).const_mul (-3 * kL / rb / Kd)).const_mul (Kd * V / 1 + 1)
    have h2 := ((h1.exp.const_sub 1).mul_const (pacDepl (pacA dose rho Kd))).const_sub 1
    rw [e]
    refine h2.congr_deriv ?_
    beta_reduce
    generalize Real.exp ((Kd * V / 1 + 1) * (-3 * kL / rb / Kd * t)) = X
    unfold pacDepl
    rw [eA]
    field_simp
    ring

/-- C115. The curve falls to the equilibrium split between water and carbon. -/
theorem c115_limit {dose rho Kd rb kL : ℝ} (hd : 0 < dose) (hrho : 0 < rho) (hK : 0 < Kd) (hr : 0 < rb)
    (hL : 0 < kL) :
    StrictAnti (helfCurve dose rho Kd rb kL) ∧
    Tendsto (helfCurve dose rho Kd rb kL) atTop (𝓝 (1 / (1 + dose / (rho * 1e6) * Kd))) := by
  have hVp : 0 < dose / (rho * 1e6) := by positivity
  have hA : 0 < pacA dose rho Kd := by unfold pacA; positivity
  have hD : 0 < pacDepl (pacA dose rho Kd) := by unfold pacDepl; positivity
  obtain ⟨-, hm, -, -, hl⟩ := c78_fraction (Vx := dose / (rho * 1e6)) hr hL one_pos hVp.le hK
  constructor
  · intro s t hst
    have := mul_lt_mul_of_pos_right (hm hst) hD
    unfold helfCurve
    linarith
  · have h2 := (hl.mul_const (pacDepl (pacA dose rho Kd))).const_sub 1
    have : 1 - 1 * pacDepl (pacA dose rho Kd) = 1 / (1 + dose / (rho * 1e6) * Kd) := by
      unfold pacDepl pacA
      field_simp
      ring
    rw [this] at h2
    exact h2

example : (0 : ℝ) < 20 ∧ (0 : ℝ) < 0.5 ∧ (0 : ℝ) < 5e4 ∧ (0 : ℝ) < 0.001 := by norm_num

/-! ### C112 -/

theorem sphereTerm_anti {D ra A x : ℝ} (hD : 0 < D) (hr : 0 < ra) (hA : 0 < A) (hx : 0 < x) :
    StrictAnti fun t : ℝ => 6 * A * (A + 1) * Real.exp (-D * t * x ^ 2 / ra ^ 2) / (9 + 9 * A + x ^ 2 * A ^ 2) := by
  intro s t hst
  have h1 : -D * t * x ^ 2 / ra ^ 2 < -D * s * x ^ 2 / ra ^ 2 := by
    have : D * s * x ^ 2 / ra ^ 2 < D * t * x ^ 2 / ra ^ 2 := by gcongr
    have e : ∀ u, -D * u * x ^ 2 / ra ^ 2 = -(D * u * x ^ 2 / ra ^ 2) := fun u => by ring
    rw [e, e]
    linarith
  have := Real.exp_lt_exp.2 h1
  show _ / _ < _ / _
  gcongr

/-- C112. The uptake of the series solution is below 1 at all times, increases strictly, and tends to 1, for
any number of roots. -/
theorem c112_fraction {D ra A : ℝ} (hD : 0 < D) (hr : 0 < ra) (hA : 0 < A) {q : List ℝ}
    (hq : ∀ x ∈ q, 0 < x) (hne : q ≠ []) :
    (∀ t, finiteSphere q D ra A t < 1) ∧ StrictMono (finiteSphere q D ra A) ∧
      Tendsto (finiteSphere q D ra A) atTop (𝓝 1) := by
  set f : ℝ → ℝ → ℝ := fun x t =>
    6 * A * (A + 1) * Real.exp (-D * t * x ^ 2 / ra ^ 2) / (9 + 9 * A + x ^ 2 * A ^ 2) with hf
  have hpos : ∀ x t, 0 < f x t := fun x t => by rw [hf]; have := Real.exp_pos (-D * t * x ^ 2 / ra ^ 2); positivity
  have hlim : ∀ x, 0 < x → Tendsto (f x) atTop (𝓝 0) := by
    intro x hx
    have hc : 0 < D * x ^ 2 / ra ^ 2 := by positivity
    have h1 : Tendsto (fun t => Real.exp (-(D * x ^ 2 / ra ^ 2 * t))) atTop (𝓝 0) :=
      Real.tendsto_exp_neg_atTop_nhds_zero.comp (tendsto_id.const_mul_atTop hc)
    have h2 := (h1.const_mul (6 * A * (A + 1))).div_const (9 + 9 * A + x ^ 2 * A ^ 2)
    rw [mul_zero, zero_div] at h2
    refine h2.congr fun t => ?_
    rw [hf]
    congr 3
    ring
  have e : ∀ t, finiteSphere q D ra A t = 1 - (q.map fun x => f x t).sum := fun t => rfl
  have main : ∀ q : List ℝ, (∀ x ∈ q, 0 < x) →
      (∀ t, 0 ≤ (q.map fun x => f x t).sum) ∧ (q ≠ [] → ∀ t, 0 < (q.map fun x => f x t).sum) ∧
      Antitone (fun t => (q.map fun x => f x t).sum) ∧
      (q ≠ [] → StrictAnti (fun t => (q.map fun x => f x t).sum)) ∧
      Tendsto (fun t => (q.map fun x => f x t).sum) atTop (𝓝 0) := by
    intro q
    induction q with
    | nil => intro _; simp [antitone_const]
    | cons x xs ih =>
      intro h
      obtain ⟨i1, -, i3, -, i5⟩ := ih fun y hy => h y (by simp [hy])
      have hx := h x (by simp)
      have hs : ∀ t, 0 < ((x :: xs).map fun x => f x t).sum := fun t => by
        simp only [List.map_cons, List.sum_cons]
        have := hpos x t
        have := i1 t
        linarith
      have ha : StrictAnti fun t => ((x :: xs).map fun x => f x t).sum := by
        intro s t hst
        simp only [List.map_cons, List.sum_cons]
        exact add_lt_add_of_lt_of_le (sphereTerm_anti hD hr hA hx hst) (i3 hst.le)
      refine ⟨fun t => (hs t).le, fun _ => hs, ha.antitone, fun _ => ha, ?_⟩
      have := (hlim x hx).add i5
      simpa using this
  obtain ⟨-, h2, -, h4, h5⟩ := main q hq
  refine ⟨fun t => ?_, fun s t hst => ?_, ?_⟩
  · rw [e]; have := h2 hne t; linarith
  · rw [e, e]; have : (q.map fun x => f x t).sum < (q.map fun x => f x s).sum := h4 hne hst; linarith
  · have := h5.const_sub 1
    rw [sub_zero] at this
    exact this

/-- C112. The reported curve `F` falls strictly to the equilibrium split. -/
theorem c112_curve {dose rho Kd D ra : ℝ} (hd : 0 < dose) (hrho : 0 < rho) (hK : 0 < Kd) (hD : 0 < D)
    (hr : 0 < ra) {q : List ℝ} (hq : ∀ x ∈ q, 0 < x) (hne : q ≠ []) :
    StrictAnti (crankCurve dose rho Kd D ra q) ∧
    Tendsto (crankCurve dose rho Kd D ra q) atTop (𝓝 (1 / (1 + dose / (rho * 1e6) * Kd))) := by
  have hA : 0 < pacA dose rho Kd := by unfold pacA; positivity
  have hDp : 0 < pacDepl (pacA dose rho Kd) := by unfold pacDepl; positivity
  obtain ⟨-, hm, hl⟩ := c112_fraction hD hr hA hq hne
  constructor
  · intro s t hst
    have := mul_lt_mul_of_pos_left (hm hst) hDp
    unfold crankCurve
    linarith
  · have h2 := (hl.const_mul (pacDepl (pacA dose rho Kd))).const_sub 1
    have : 1 - pacDepl (pacA dose rho Kd) * 1 = 1 / (1 + dose / (rho * 1e6) * Kd) := by
      unfold pacDepl pacA
      field_simp
      ring
    rw [this] at h2
    exact h2

example : ∀ x ∈ [(4.4934 : ℝ), 7.7253], 0 < x := by norm_num

/-! ### C81 -/

/-- `x` is a root of the characteristic equation of Crank's finite bath series. -/
def Spec.CrankRoot (A x : ℝ) : Prop := Real.tan x = 3 * x / (3 + A * x ^ 2)

theorem tan_small : 0 < Real.tan 0.000001 ∧ Real.tan 0.000001 < 0.000002 := by
  have hpi := Real.pi_gt_three
  constructor
  · exact Real.tan_pos_of_pos_of_lt_pi_div_two (by norm_num) (by linarith)
  · have h1 : Real.sin 0.000001 < 0.000001 := Real.sin_lt (by norm_num)
    have h2 := Real.one_sub_sq_div_two_le_cos (x := 0.000001)
    have h3 : (1 / 2 : ℝ) < Real.cos 0.000001 := by norm_num at h2 ⊢; linarith
    rw [Real.tan_eq_sin_div_cos, div_lt_iff₀ (by linarith)]
    norm_num at h1 h3 ⊢
    linarith

theorem qn_tan_left (N : ℕ) : Real.tan (qnGuess N) = -Real.tan 0.000001 := by
  have : qnGuess N = -0.000001 + (N + 1 : ℕ) * Real.pi := by unfold qnGuess; push_cast; ring
  rw [this, Real.tan_add_nat_mul_pi, Real.tan_neg]

theorem qn_tan_right (N : ℕ) : Real.tan (qnGuess N + Real.pi / 2) = (Real.tan 0.000001)⁻¹ := by
  have : qnGuess N + Real.pi / 2 = (Real.pi / 2 - 0.000001) + (N + 1 : ℕ) * Real.pi := by
    unfold qnGuess; push_cast; ring
  rw [this, Real.tan_add_nat_mul_pi, Real.tan_pi_div_two_sub]

/-- No pole of the tangent lies in a bracket. -/
theorem qn_cos_ne {N : ℕ} {x : ℝ} (h1 : qnGuess N ≤ x) (h2 : x ≤ qnGuess N + Real.pi / 2) : Real.cos x ≠ 0 := by
  have hpi := Real.pi_gt_three
  have e : x = (x - (N + 1 : ℕ) * Real.pi) + (N + 1 : ℕ) * Real.pi := by ring
  have hc : 0 < Real.cos (x - (N + 1 : ℕ) * Real.pi) := by
    apply Real.cos_pos_of_mem_Ioo
    unfold qnGuess at h1 h2
    push_cast
    constructor
    · linarith
    · linarith
  have := Real.cos_sub_nat_mul_pi x (N + 1)
  intro h0
  rw [h0, mul_zero] at this
  exact hc.ne' this

theorem qn_lower_pos (N : ℕ) : 0 < qnGuess N := by
  have hpi := Real.pi_gt_three
  have : (0 : ℝ) ≤ N * Real.pi := by positivity
  unfold qnGuess
  linarith

/-- The function whose root is sought increases on each bracket. -/
theorem qn_strict {A : ℝ} (hA : 0 < A) (N : ℕ) :
    StrictMonoOn (qnFun A) (Set.Icc (qnGuess N) (qnGuess N + Real.pi / 2)) := by
  have hden : ∀ x : ℝ, 3 + A * x ^ 2 ≠ 0 := fun x => by positivity
  have hd : ∀ x ∈ Set.Icc (qnGuess N) (qnGuess N + Real.pi / 2), HasDerivAt (qnFun A)
      (1 / Real.cos x ^ 2 - (3 * (3 + A * x ^ 2) - 3 * x * (A * (2 * x))) / (3 + A * x ^ 2) ^ 2) x := by
    intro x hx
    have h1 := Real.hasDerivAt_tan (qn_cos_ne hx.1 hx.2)
    have h2 : HasDerivAt (fun x : ℝ => 3 * x) 3 x := by simpa using (hasDerivAt_id x).const_mul 3
    have h3 : HasDerivAt (fun x : ℝ => 3 + A * x ^ 2) (A * (2 * x)) x := by
      simpa using ((hasDerivAt_pow 2 x).const_mul A).const_add 3
    exact h1.sub (h2.div h3 (hden x))
  refine strictMonoOn_of_deriv_pos (convex_Icc _ _) (fun x hx => (hd x hx).continuousAt.continuousWithinAt) ?_
  intro x hx
  have hx' := interior_subset hx
  rw [(hd x hx').deriv]
  have hxp : 0 < x := lt_of_lt_of_le (qn_lower_pos N) hx'.1
  have hcos : 1 ≤ 1 / Real.cos x ^ 2 := by
    have hc := qn_cos_ne hx'.1 hx'.2
    rw [le_div_iff₀ (by positivity), one_mul]
    exact Real.cos_sq_le_one x
  have hfr : (3 * (3 + A * x ^ 2) - 3 * x * (A * (2 * x))) / (3 + A * x ^ 2) ^ 2 < 1 := by
    have hpos : 0 < 3 + A * x ^ 2 := by positivity
    rw [div_lt_one (by positivity)]
    have : 0 < A * x ^ 2 := by positivity
    nlinarith
  linarith

/-- The bracket of the `N`-th pass changes sign, for the first hundred thousand roots. -/
theorem qn_signs {A : ℝ} (hA : 0 < A) {N : ℕ} (hN : N ≤ 100000) :
    qnFun A (qnGuess N) < 0 ∧ 0 < qnFun A (qnGuess N + Real.pi / 2) := by
  have ht := tan_small
  have hg := qn_lower_pos N
  have hpi := Real.pi_lt_four
  have hpi3 := Real.pi_gt_three
  constructor
  · unfold qnFun
    rw [qn_tan_left]
    have : 0 < 3 * qnGuess N / (3 + A * qnGuess N ^ 2) := by positivity
    linarith [ht.1]
  · unfold qnFun
    rw [qn_tan_right]
    set x := qnGuess N + Real.pi / 2 with hx
    have hx0 : 0 < x := by linarith
    have h1 : 3 * x / (3 + A * x ^ 2) ≤ x := by
      rw [div_le_iff₀ (by positivity)]
      have : 0 ≤ x * (A * x ^ 2) := by positivity
      nlinarith
    have h2 : x < 500000 := by
      rw [hx]
      unfold qnGuess
      have : (N : ℝ) ≤ 100000 := by exact_mod_cast hN
      have : (N : ℝ) * Real.pi ≤ 100000 * 4 := by
        apply mul_le_mul this hpi.le (by linarith) (by norm_num)
      linarith
    have h3 : 500000 < (Real.tan 0.000001)⁻¹ := by
      rw [lt_inv_comm₀ (by norm_num) ht.1]
      calc Real.tan 0.000001 < 0.000002 := ht.2
        _ = _ := by norm_num
    linarith

/-- C81. For every positive `A` and each of the first hundred thousand passes (the code asks for 500), the
function is continuous on the bracket, changes sign over it, and has exactly one root in it; that root lies
in the branch `(N+1) pi` to `(N+1) pi + pi/2`. -/
theorem c81_bracket {A : ℝ} (hA : 0 < A) {N : ℕ} (hN : N ≤ 100000) :
    ContinuousOn (qnFun A) (Set.Icc (qnGuess N) (qnGuess N + Real.pi / 2)) ∧
    qnFun A (qnGuess N) * qnFun A (qnGuess N + Real.pi / 2) < 0 ∧
    (∃! x, x ∈ Set.Icc (qnGuess N) (qnGuess N + Real.pi / 2) ∧ Spec.CrankRoot A x) ∧
    ∀ x ∈ Set.Icc (qnGuess N) (qnGuess N + Real.pi / 2), Spec.CrankRoot A x →
      (N + 1 : ℕ) * Real.pi < x ∧ x < (N + 1 : ℕ) * Real.pi + Real.pi / 2 := by
  have hpi := Real.pi_gt_three
  have hs := qn_signs hA hN
  have hroot : ∀ x, qnFun A x = 0 ↔ Spec.CrankRoot A x := fun x => by
    unfold qnFun Spec.CrankRoot; exact sub_eq_zero
  have hcont : ContinuousOn (qnFun A) (Set.Icc (qnGuess N) (qnGuess N + Real.pi / 2)) := by
    intro x hx
    have h1 := (Real.hasDerivAt_tan (qn_cos_ne hx.1 hx.2)).continuousAt
    have h2 : ContinuousAt (fun x : ℝ => 3 * x / (3 + A * x ^ 2)) x := by
      apply ContinuousAt.div
      · fun_prop
      · fun_prop
      · have : 0 ≤ A * x ^ 2 := by positivity
        linarith
    exact (h1.sub h2).continuousWithinAt
  refine ⟨hcont, mul_neg_of_neg_of_pos hs.1 hs.2, ?_, ?_⟩
  · have hle : qnGuess N ≤ qnGuess N + Real.pi / 2 := by linarith
    obtain ⟨x, hx, hx0⟩ := intermediate_value_Icc hle hcont ⟨hs.1.le, hs.2.le⟩
    refine ⟨x, ⟨hx, (hroot x).1 hx0⟩, ?_⟩
    rintro y ⟨hy, hy0⟩
    refine (qn_strict hA N).injOn hy hx ?_
    rw [hx0, (hroot y).2 hy0]
  · intro x hx hx0
    constructor
    · by_contra hcon
      push Not at hcon
      have hmem : ((N + 1 : ℕ) : ℝ) * Real.pi ∈ Set.Icc (qnGuess N) (qnGuess N + Real.pi / 2) := by
        unfold qnGuess
        push_cast
        constructor <;> linarith
      have h1 := (qn_strict hA N).monotoneOn hx hmem hcon
      rw [(hroot x).2 hx0] at h1
      have h2 : qnFun A ((N + 1 : ℕ) * Real.pi) < 0 := by
        unfold qnFun
        rw [Real.tan_nat_mul_pi]
        have : 0 < ((N + 1 : ℕ) : ℝ) * Real.pi := by positivity
        have : 0 < 3 * (((N + 1 : ℕ) : ℝ) * Real.pi) / (3 + A * (((N + 1 : ℕ) : ℝ) * Real.pi) ^ 2) := by
          positivity
        linarith
      linarith
    · have := hx.2
      unfold qnGuess at this
      push_cast
      linarith

/-- C81. Whatever root the solver returns in each bracket, successive roots increase strictly, and all are
positive. -/
theorem c81_increasing {x : ℕ → ℝ}
    (hx : ∀ N, x N ∈ Set.Icc (qnGuess N) (qnGuess N + Real.pi / 2)) : StrictMono x ∧ ∀ N, 0 < x N := by
  have hpi := Real.pi_gt_three
  refine ⟨strictMono_nat_of_lt_succ fun N => ?_, fun N => (qn_lower_pos N).trans_le (hx N).1⟩
  have h1 := (hx N).2
  have h2 := (hx (N + 1)).1
  have : qnGuess (N + 1) = qnGuess N + Real.pi := by unfold qnGuess; push_cast; ring
  linarith

/-- The solver's points exist, e.g. the left ends. -/
example : ∀ N : ℕ, qnGuess N ∈ Set.Icc (qnGuess N) (qnGuess N + Real.pi / 2) := fun N =>
  ⟨le_refl _, by have := Real.pi_pos; linarith⟩

end WTM
