import Mathlib.Tactic
import Mathlib.Analysis.SpecialFunctions.Trigonometric.Deriv
import Mathlib.Analysis.SpecialFunctions.Trigonometric.Bounds
import Mathlib.Analysis.SpecialFunctions.Trigonometric.ArctanDeriv
import Mathlib.Analysis.SpecialFunctions.ExpDeriv
import Mathlib.Analysis.Calculus.MeanValue
import Mathlib.Topology.Order.IntermediateValue
import Verif.Model.Pac
import Verif.Spec.Ode
import Verif.Spec.Units
import Verif.Lemmas.Ode
import Verif.Props.Colloc
import Verif.Props.IexColumn
import Verif.Props.Tools

/-! C74-C81, C107-C115: powdered carbon. -/
set_option autoImplicit false
namespace WTM
open BigOperators

variable {m nd : ℕ}

/-! ### C74 -/

/-- Amount of compound `i` per volume of contactor, relative to the influent: dissolved, plus on carbon. -/
def Spec.pacAmount (E : ℝ) (W : Fin (nd + 1) → ℝ) (y : PacY nd m) (i : Fin m) : ℝ :=
  E * y.2 i + 3 * (1 - E) * ∑ k, W k * y.1 k i

/-- C74. For every state, dose and compound the amount has rate zero. -/
theorem c74_rate (p : Pac m) (B : Fin (nd + 1) → Fin (nd + 1) → ℝ) {W : Fin (nd + 1) → ℝ}
    (hW : W (Fin.last nd) ≠ 0) (hE : p.epsilon ≠ 0) (y : PacY nd m) (i : Fin m) :
    Spec.pacAmount p.epsilon W (p.rhs B W y) i = 0 := by
  unfold Spec.pacAmount Pac.rhs
  rw [Fin.sum_univ_castSucc]
  have h1 : ∀ k : Fin nd, (k.castSucc = Fin.last nd) = False := fun k => by
    simp [(Fin.castSucc_lt_last k).ne]
  simp only [h1, if_false, if_true]
  rw [mul_div_cancel₀ _ hW]
  field_simp
  ring

/-- Component of a state. -/
def pacComp (a : (Fin (nd + 1) × Fin m) ⊕ Fin m) (y : PacY nd m) : ℝ :=
  Sum.elim (fun b => y.1 b.1 b.2) (fun i => y.2 i) a

/-- C74. Along every exact solution the amount of each compound stays what it was. -/
theorem c74_solutions (p : Pac m) (B : Fin (nd + 1) → Fin (nd + 1) → ℝ) {W : Fin (nd + 1) → ℝ}
    (hW : W (Fin.last nd) ≠ 0) (hE : p.epsilon ≠ 0) {t0 t1 : ℝ} {y : ℝ → PacY nd m}
    (h : Spec.Solves pacComp (fun _ u => p.rhs B W u) t0 t1 y) {t : ℝ} (ht : t ∈ Set.Icc t0 t1)
    (i : Fin m) : Spec.pacAmount p.epsilon W (y t) i = Spec.pacAmount p.epsilon W (y t0) i := by
  have key := solves_invariant h (κ := Fin (nd + 1) ⊕ Unit)
    (Sum.elim (fun k => 3 * (1 - p.epsilon) * W k) (fun _ => p.epsilon))
    (Sum.elim (fun k => Sum.inl (k, i)) (fun _ => Sum.inr i))
    (fun s _ => by
      have := c74_rate p B hW hE (y s) i
      unfold Spec.pacAmount at this
      rw [Finset.mul_sum] at this
      simp only [Fintype.sum_sum_type, Sum.elim_inl, Sum.elim_inr, pacComp, Finset.univ_unique,
        Finset.sum_singleton]
      rw [← this, add_comm]
      congr 1
      exact Finset.sum_congr rfl fun k _ => by ring) ht
  simp only [Fintype.sum_sum_type, Sum.elim_inl, Sum.elim_inr, pacComp, Finset.univ_unique,
    Finset.sum_singleton] at key
  unfold Spec.pacAmount
  rw [Finset.mul_sum, Finset.mul_sum, add_comm, add_comm (p.epsilon * (y t0).2 i)]
  simpa only [mul_assoc] using key

/-- C74. The same for every state produced by a consistent time-stepping scheme; a run of the code starts
with the amount `epsilon`. -/
theorem c74_schemes (p : Pac m) (B : Fin (nd + 1) → Fin (nd + 1) → ℝ) {W : Fin (nd + 1) → ℝ}
    (hW : W (Fin.last nd) ≠ 0) (hE : p.epsilon ≠ 0) {y : PacY nd m}
    (h : Spec.Produced (fun _ u => p.rhs B W u) pacInit y) (i : Fin m) :
    Spec.pacAmount p.epsilon W y i = p.epsilon := by
  have := produced_invariant (S := PacY nd m)
    { toFun := fun u => Spec.pacAmount p.epsilon W u i
      map_add' := fun u v => by
        simp only [Spec.pacAmount, Prod.fst_add, Prod.snd_add, Pi.add_apply, mul_add,
          Finset.sum_add_distrib]
        ring
      map_smul' := fun c u => by
        simp only [Spec.pacAmount, Prod.smul_fst, Prod.smul_snd, Pi.smul_apply, smul_eq_mul,
          RingHom.id_apply]
        have : ∑ k, W k * (c * u.1 k i) = c * ∑ k, W k * u.1 k i := by
          rw [Finset.mul_sum]
          exact Finset.sum_congr rfl fun k _ => by ring
        rw [this]
        ring }
    (fun t u => c74_rate p B hW hE u i) h
  have h2 : Spec.pacAmount p.epsilon W y i = Spec.pacAmount p.epsilon W (pacInit : PacY nd m) i := this
  rw [h2]
  simp [Spec.pacAmount, pacInit]

/-- The weights of the code qualify, for any distinct positive interior nodes. -/
theorem c74_weights {u : Fin (nd + 1) → ℝ} (hu : Function.Injective u) (hpos : ∀ i, 0 < u i) :
    symmW 3 u (Fin.last nd) ≠ 0 ∧ ∑ k, symmW 3 u k = 1 / 3 :=
  ⟨((c17_positive_sum (Nat.succ_pos nd) hu hpos (by norm_num)).1 _).ne',
    (c17_positive_sum (Nat.succ_pos nd) hu hpos (by norm_num)).2⟩

/-- A model for the examples below: 20 mg/L of a carbon of density 0.5 g/mL in water of density 1, one
compound at 4 ug/L. -/
noncomputable def exPac : Pac 1 :=
  ({ density := 0.5
     porosity := 0.6
     radius := 0.001
     dw := 1
     hrt := 3600
     dosage := 20
     duration := 7200
     epsilon := 0
     conv := fun _ => 1
     comp := fun _ => ⟨100, 1 / 2, 0.01, 1e-6, 1e-11, 4, "ug", ⟨0, 0, 0, 0, 0, 0, 0, 0, 0⟩⟩ } : Pac 1).update

theorem exPac_eps : exPac.epsilon = 0.99998 := by
  show pacEps 20 1 = _
  norm_num [pacEps]

example : exPac.epsilon ≠ 0 ∧ symmW 3 (radialNodes (fun _ : Fin 1 => (3 / 7 : ℝ))) (Fin.last 1) ≠ 0 := by
  constructor
  · rw [exPac_eps]; norm_num
  · refine (c74_weights (nd := 1) ?_ ?_).1
    · intro a b h
      fin_cases a <;> fin_cases b <;> simp_all [radialNodes, Fin.snoc] <;> norm_num at h
    · intro a
      fin_cases a <;> simp [radialNodes, Fin.snoc]

/-! ### C113 -/

/-- C113. A contactor whose carbon is uniformly loaded in equilibrium with the water does not change. -/
theorem c113_stationary (p : Pac m) {B : Fin (nd + 1) → Fin (nd + 1) → ℝ} (hB : ∀ k, ∑ l, B k l = 0)
    (W : Fin (nd + 1) → ℝ) {c q : Fin m → ℝ} (hc : ∀ i, 0 ≤ c i)
    (hpos : ∀ i, 0 < (p.comp i).K ∧ 0 < (p.comp i).xni) (hd : 0 < p.density)
    (hq : ∀ i, q i = p.density * 1000 * ((p.comp i).K * c i ^ (p.comp i).xni)) :
    p.rhs B W ((fun _ i => q i, c) : PacY nd m) = (fun _ _ => 0, fun _ => 0) := by
  have hcp : ∀ k i, p.cp ((fun _ i => q i, c) : PacY nd m) k i = c i := by
    intro k i
    have h1 : q i / p.rho / (p.comp i).K = c i ^ (p.comp i).xni := by
      rw [hq, Pac.rho]
      have := (hpos i).1
      field_simp
    unfold Pac.cp
    simp only [h1]
    rw [if_neg (not_lt.2 (Real.rpow_nonneg (hc i) _)), ← Real.rpow_mul (hc i),
      mul_one_div_cancel (hpos i).2.ne', Real.rpow_one]
  have hJ : ∀ i, p.flux ((fun _ i => q i, c) : PacY nd m) i = 0 := by
    intro i; unfold Pac.flux; rw [hcp]; simp
  have hr : ∀ k i, p.rawY B ((fun _ i => q i, c) : PacY nd m) k i = 0 := by
    intro k i
    unfold Pac.rawY
    simp only [hcp]
    rw [← Finset.sum_mul, ← Finset.sum_mul, hB]
    simp
  unfold Pac.rhs
  simp only [hJ, hr]
  simp

/-- The matrix of the code qualifies. -/
theorem c113_matrix {u : Fin (nd + 1) → ℝ} (hu : Function.Injective u) (hpos : ∀ i, 0 < u i)
    (k : Fin (nd + 1)) : ∑ l, symmB 3 u k l = 0 := br_rows hu hpos 3 k

example : (∀ i, 0 < (exPac.comp i).K ∧ 0 < (exPac.comp i).xni) ∧ 0 < exPac.density := by
  refine ⟨fun i => ?_, ?_⟩
  · show (0 : ℝ) < 100 ∧ (0 : ℝ) < 1 / 2
    norm_num
  · show (0 : ℝ) < 0.5
    norm_num

/-- C113. Water above a clean carbon loses every compound at a rate proportional to its film coefficient:
the initial rates of the code. -/
theorem c113_initial (p : Pac m) (B : Fin (nd + 1) → Fin (nd + 1) → ℝ) (W : Fin (nd + 1) → ℝ)
    (hpos : ∀ i, 0 < (p.comp i).xni) (i : Fin m) :
    (p.rhs B W (pacInit : PacY nd m)).2 i =
      -((1 - p.epsilon) / p.epsilon * (3 * (p.comp i).kf / p.radius)) := by
  have : p.cp (pacInit : PacY nd m) (Fin.last nd) i = 0 := by
    unfold Pac.cp pacInit
    simp only [zero_div, lt_irrefl, if_false]
    exact Real.zero_rpow (one_div_pos.2 (hpos i)).ne'
  show (1 - p.epsilon) / p.epsilon * (-(p.comp i).kf * (1 - p.cp (pacInit : PacY nd m) (Fin.last nd) i)) *
    (3 / p.radius) = _
  rw [this]
  ring

/-! ### C76 -/

/-- The water holds what a mass balance says is not on the carbon: at the end of a run that began with the
influent, `carbon` grams per litre of water carry what the water lost. All in ug, L, g. -/
noncomputable def Spec.loading (c0 ceff carbon : ℝ) : ℝ := (c0 - ceff) / carbon

/-- Equilibrium state of the model: uniform loading, pore water equal to the bulk. -/
def Spec.PacEquilibrium (p : Pac m) (W : Fin (nd + 1) → ℝ) (y : PacY nd m) (i : Fin m) : Prop :=
  (∀ k l, y.1 k i = y.1 l i) ∧ p.cp y (Fin.last nd) i = y.2 i ∧
    Spec.pacAmount p.epsilon W y i = p.epsilon

/-- C76. At equilibrium the loading in ug/g deduced from the reported effluent is `K C^(1/n)` with `C` the
reported effluent in ug/L. -/
def C76 : Prop := ∀ (m nd : ℕ) (p : Pac m) (W : Fin (nd + 1) → ℝ) (y : PacY nd m) (i : Fin m),
  ∑ k, W k = 1 / 3 → 0 < p.epsilon → p.epsilon < 1 → 0 < p.density → 0 < (p.comp i).K →
  0 < (p.comp i).xni → 0 < (p.comp i).C0 → 0 < p.conv i → 0 < y.2 i → Spec.PacEquilibrium p W y i →
  Spec.loading ((p.comp i).C0 * p.conv i) ((p.comp i).C0 * y.2 i * p.conv i)
      ((1 - p.epsilon) / p.epsilon * (p.density * 1000)) =
    (p.comp i).K * ((p.comp i).C0 * y.2 i * p.conv i) ^ (p.comp i).xni

/-- What holds: the loading carries an extra factor `C0^(1-1/n)`, so the isotherm is evaluated at the
concentration relative to the influent. -/
theorem c76_partial (p : Pac m) {W : Fin (nd + 1) → ℝ} {y : PacY nd m} {i : Fin m}
    (hW : ∑ k, W k = 1 / 3) (hE : 0 < p.epsilon) (hE1 : p.epsilon < 1) (hd : 0 < p.density)
    (hK : 0 < (p.comp i).K) (hx : 0 < (p.comp i).xni) (hC : 0 < (p.comp i).C0) (hv : 0 < p.conv i)
    (hy : 0 < y.2 i) (he : Spec.PacEquilibrium p W y i) :
    Spec.loading ((p.comp i).C0 * p.conv i) ((p.comp i).C0 * y.2 i * p.conv i)
      ((1 - p.epsilon) / p.epsilon * (p.density * 1000)) =
    ((p.comp i).C0 * p.conv i) ^ (1 - (p.comp i).xni) *
      ((p.comp i).K * ((p.comp i).C0 * y.2 i * p.conv i) ^ (p.comp i).xni) := by
  obtain ⟨h1, h2, h3⟩ := he
  set Y := y.1 (Fin.last nd) i with hY
  have hsum : ∑ k, W k * y.1 k i = 1 / 3 * Y := by
    rw [Finset.sum_congr rfl fun k _ => by rw [h1 k (Fin.last nd)], ← Finset.sum_mul, hW]
  have hq : Y / p.rho / (p.comp i).K = y.2 i ^ (p.comp i).xni := by
    unfold Pac.cp at h2
    simp only [← hY] at h2
    by_cases hn : Y / p.rho / (p.comp i).K < 0
    · rw [if_pos hn, Real.zero_rpow (one_div_pos.2 hx).ne'] at h2
      linarith
    · rw [if_neg hn] at h2
      rw [← h2, ← Real.rpow_mul (not_lt.1 hn), one_div_mul_cancel hx.ne', Real.rpow_one]
  have hYe : Y = p.density * 1000 * ((p.comp i).K * y.2 i ^ (p.comp i).xni) := by
    rw [← hq, Pac.rho]; field_simp
  have hm : p.epsilon * (1 - y.2 i) = (1 - p.epsilon) * Y := by
    unfold Spec.pacAmount at h3
    rw [hsum] at h3
    linarith
  have hc : 0 < (p.comp i).C0 * p.conv i := mul_pos hC hv
  have e1 : (p.comp i).C0 * y.2 i * p.conv i = (p.comp i).C0 * p.conv i * y.2 i := by ring
  rw [e1, Real.mul_rpow hc.le hy.le]
  have e2 : ((p.comp i).C0 * p.conv i) ^ (1 - (p.comp i).xni) *
      ((p.comp i).K * (((p.comp i).C0 * p.conv i) ^ (p.comp i).xni * y.2 i ^ (p.comp i).xni)) =
      (((p.comp i).C0 * p.conv i) ^ (1 - (p.comp i).xni) * ((p.comp i).C0 * p.conv i) ^ (p.comp i).xni) *
        ((p.comp i).K * y.2 i ^ (p.comp i).xni) := by ring
  rw [e2, ← Real.rpow_add hc, sub_add_cancel, Real.rpow_one]
  have e3 : (p.comp i).K * y.2 i ^ (p.comp i).xni = Y / (p.density * 1000) := by
    rw [hYe]; field_simp
  rw [e3]
  unfold Spec.loading
  have : 0 < 1 - p.epsilon := by linarith
  field_simp
  linear_combination hm

/-- An equilibrium: half water, `rho K = 3/2`, one quarter left in the water. -/
noncomputable def exEq : Pac 1 :=
  { exPac with
    density := 0.0015
    epsilon := 1 / 2
    comp := fun _ => ⟨1, 1 / 2, 0.01, 1e-6, 1e-11, 4, "ug", ⟨0, 0, 0, 0, 0, 0, 0, 0, 0⟩⟩ }

theorem exEq_equilibrium :
    Spec.PacEquilibrium exEq (fun _ : Fin 1 => 1 / 3) ((fun _ _ => 3 / 4, fun _ => 1 / 4) : PacY 0 1) 0 := by
  refine ⟨fun _ _ => rfl, ?_, ?_⟩
  · show (if (3 / 4 : ℝ) / (0.0015 * 1000) / 1 < 0 then (0 : ℝ) else 3 / 4 / (0.0015 * 1000) / 1) ^
      (1 / (1 / 2) : ℝ) = 1 / 4
    have : (1 / (1 / 2) : ℝ) = (2 : ℕ) := by norm_num
    rw [this, Real.rpow_natCast]
    norm_num
  · simp [Spec.pacAmount, exEq]
    norm_num

/-- C76 is false: at 4 ug/L with `1/n = 1/2` the loading is twice what the isotherm gives. -/
theorem c76_false : ¬ C76 := by
  intro h
  have h1 := h 1 0 exEq (fun _ => 1 / 3) (fun _ _ => 3 / 4, fun _ => 1 / 4) 0 (by simp)
    (by norm_num [exEq]) (by norm_num [exEq]) (by norm_num [exEq]) (by norm_num [exEq])
    (by norm_num [exEq]) (by norm_num [exEq]) (by show (0 : ℝ) < 1; norm_num) (by norm_num)
    exEq_equilibrium
  have hc : exEq.conv 0 = 1 := rfl
  have : (exEq.comp 0).C0 = 4 := rfl
  rw [hc, this] at h1
  have h2 : (exEq.comp 0).K = 1 := rfl
  have h3 : (exEq.comp 0).xni = 1 / 2 := rfl
  rw [h2, h3] at h1
  norm_num [Spec.loading, exEq] at h1

/-- C76. As a consequence the fraction removed does not depend on the influent concentration or its units:
two models that differ in nothing else report effluents in the proportion of their influents. -/
theorem c76_proportional (ivp : Ivp nd m) (B : Fin (nd + 1) → Fin (nd + 1) → ℝ) (W : Fin (nd + 1) → ℝ)
    (p : Pac m) (c : Fin m → ℝ) (cv : Fin m → ℝ) (hC : ∀ i, (p.comp i).C0 ≠ 0) :
    ({ p with conv := cv, comp := fun i => { p.comp i with C0 := c i } } : Pac m).run ivp B W =
      (p.run ivp B W).map fun r => (r.1, fun i => r.2 i * (c i / (p.comp i).C0)) := by
  unfold Pac.run
  rw [List.map_map]
  refine List.map_congr_left fun r _ => ?_
  simp only [Function.comp_apply]
  refine Prod.ext rfl (funext fun i => ?_)
  show c i * r.2.2 i = (p.comp i).C0 * r.2.2 i * (c i / (p.comp i).C0)
  have := hC i
  field_simp

example : ∀ i, (exPac.comp i).C0 ≠ 0 := fun _ => by show (4 : ℝ) ≠ 0; norm_num

end WTM
