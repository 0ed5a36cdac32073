import Mathlib.Tactic
import Mathlib.Algebra.BigOperators.Field
import Verif.Model.Ecm
import Verif.Props.GacColumn

/-! C47 (equilibrium column), C68, C69, C97-C101: the equilibrium column model. -/
set_option autoImplicit false
namespace WTM
open BigOperators

/-! ### C47 -/

/-- C47. With the mass option the capacity is the same Freundlich law in molar units. -/
theorem c47_ecm {n : ℕ} {cs : ℕ → EcmIn} {i : ℕ} (hm : 0 < (cs i).mw) {q C : ℝ} (hC : 0 < C) :
    Spec.Freundlich (cs i).K (cs i).invn q C ↔
      Spec.Freundlich ((ecmData true n cs).K i) ((ecmData true n cs).invn i) (q / (cs i).mw) (C / (cs i).mw) := by
  unfold Spec.Freundlich ecmData
  simp only [if_true]
  have h1 : 0 < (1 / (cs i).mw) ^ (cs i).invn := Real.rpow_pos_of_pos (by positivity) _
  have e : (C / (cs i).mw) ^ (cs i).invn = C ^ (cs i).invn * (1 / (cs i).mw) ^ (cs i).invn := by
    rw [← Real.mul_rpow hC.le (by positivity)]; congr 1; ring
  rw [e, div_mul_eq_mul_div, eq_div_iff h1.ne', div_mul_eq_mul_div, div_mul_eq_mul_div]
  rw [div_left_inj' hm.ne', ← mul_assoc, mul_left_inj' h1.ne']

/-- C47. Without it the given capacity is used as it is. -/
theorem c47_ecm_molar {n : ℕ} (cs : ℕ → EcmIn) (i : ℕ) : (ecmData false n cs).K i = (cs i).K := by
  simp [ecmData]

/-- Trichloroethene-like numbers meet the hypotheses. -/
example : 0 < ((fun _ => ⟨200, 0.45, 131.4, 50⟩ : ℕ → EcmIn) 0).mw ∧ (0 : ℝ) < 50 := by norm_num

/-! ### C68 -/

/-- The formula of ideal adsorbed solution theory for Freundlich isotherms. -/
theorem iast_formula {m : ℕ} {K ν q c : Fin m → ℝ} (hK : ∀ i, 0 < K i) (hν : ∀ i, 0 < ν i)
    (hq : ∀ i, 0 ≤ q i) {j : Fin m} (hj : 0 < q j)
    (hc : ∀ i, c i = q i / (∑ k, q k) * ((∑ k, ν k * q k) / (ν i * K i)) ^ ν i) :
    Spec.Iast K (fun i => 1 / ν i) q c := by
  set S := ∑ k, q k with hS
  set P := ∑ k, ν k * q k with hP
  have hSpos : 0 < S := Finset.sum_pos' (fun k _ => hq k) ⟨j, Finset.mem_univ j, hj⟩
  have hPpos : 0 < P := Finset.sum_pos' (fun k _ => mul_nonneg (hν k).le (hq k))
    ⟨j, Finset.mem_univ j, mul_pos (hν j) hj⟩
  have hb : ∀ i, 0 < P / (ν i * K i) := fun i => div_pos hPpos (mul_pos (hν i) (hK i))
  refine ⟨P, fun i => P / ν i, fun i => (P / (ν i * K i)) ^ ν i, hPpos, ?_, ?_, hc, ?_⟩
  · intro i
    refine ⟨div_pos hPpos (hν i), Real.rpow_pos_of_pos (hb i) _, ?_⟩
    unfold Spec.Freundlich
    rw [← Real.rpow_mul (hb i).le, mul_one_div_cancel (hν i).ne', Real.rpow_one]
    have := (hν i).ne'
    have := (hK i).ne'
    field_simp
  · intro i
    have := (hν i).ne'
    field_simp
  · have e : ∀ k, q k / S / (P / ν k) = ν k * q k / (S * P) := by
      intro k
      have := (hν k).ne'
      field_simp
    rw [← hS, Finset.sum_congr rfl (fun k _ => e k), ← Finset.sum_div, ← hP]
    field_simp

/-- Every component has a positive capacity and exponent. -/
def EcmData.Ok (d : EcmData) : Prop := ∀ i, 0 < d.K i ∧ 0 < d.invn i ∧ d.xn i = 1 / d.invn i

/-- What the reader of the input file makes of a positive sheet is such a table. -/
theorem ecmData_ok {mass : Bool} {n : ℕ} {cs : ℕ → EcmIn} (h : ∀ i, 0 < (cs i).K ∧ 0 < (cs i).invn ∧ 0 < (cs i).mw) :
    (ecmData mass n cs).Ok := by
  intro i
  obtain ⟨h1, h2, h3⟩ := h i
  refine ⟨?_, h2, rfl⟩
  unfold ecmData
  simp only
  split
  · exact div_pos (div_pos h1 h3) (Real.rpow_pos_of_pos (by positivity) _)
  · exact h1

theorem EcmData.Ok.xn_pos {d : EcmData} (h : d.Ok) (i : ℕ) : 0 < d.xn i := by
  rw [(h i).2.2]; exact one_div_pos.2 (h i).2.1

theorem EcmData.Ok.inv {d : EcmData} (h : d.Ok) (i : ℕ) : 1 / d.xn i = d.invn i := by
  rw [(h i).2.2, one_div_one_div]

/-- C68. The concentrations computed for all components satisfy the equations of the theory. -/
theorem c68_all {d : EcmData} (h : d.Ok) {x : Fin d.n → ℝ} (hx : ∀ i, 0 ≤ x i) {j : Fin d.n} (hj : 0 < x j) :
    Spec.Iast (fun i : Fin d.n => d.K i) (fun i : Fin d.n => d.invn i) x (d.fcn2 x) := by
  have := iast_formula (K := fun i : Fin d.n => d.K i) (ν := fun i : Fin d.n => d.xn i) (q := x) (c := d.fcn2 x)
    (fun i => (h i).1) (fun i => h.xn_pos i) hx hj (fun i => rfl)
  simpa only [h.inv] using this

/-- C68. So do those computed for the components that remain in a zone: the last `m` of the table. -/
theorem c68_zone {d : EcmData} (h : d.Ok) {m : ℕ} {x : Fin m → ℝ} (hx : ∀ i, 0 ≤ x i) {j : Fin m} (hj : 0 < x j) :
    Spec.Iast (fun i : Fin m => d.K (d.n - m + i)) (fun i : Fin m => d.invn (d.n - m + i)) x (d.fcn2e x) := by
  have := iast_formula (K := fun i : Fin m => d.K (d.n - m + i)) (ν := fun i : Fin m => d.xn (d.n - m + i))
    (q := x) (c := d.fcn2e x)
    (fun i => (h _).1) (fun i => h.xn_pos _) hx hj (fun i => rfl)
  simpa only [h.inv] using this

/-- C68. For one component it is the Freundlich isotherm. -/
theorem c68_single {d : EcmData} (h : d.Ok) {x : Fin 1 → ℝ} (hx : 0 < x 0) :
    Spec.Freundlich (d.K (d.n - 1)) (d.invn (d.n - 1)) (x 0) (d.fcn2e x 0) := by
  obtain ⟨h1, h2, -⟩ := h (d.n - 1)
  have hν := h.xn_pos (d.n - 1)
  unfold Spec.Freundlich EcmData.fcn2e
  simp only [Fin.sum_univ_one, Fin.val_zero, Nat.add_zero]
  rw [div_self hx.ne', one_mul, mul_div_mul_left _ _ hν.ne', ← h.inv,
    ← Real.rpow_mul (div_pos hx h1).le, mul_one_div_cancel hν.ne', Real.rpow_one]
  field_simp

/-- Both functions agree on the whole table. -/
theorem c68_agree (d : EcmData) (x : Fin d.n → ℝ) (i : Fin d.n) : d.fcn2e x i = d.fcn2 x i := by
  unfold EcmData.fcn2e EcmData.fcn2
  simp

/-! ### C69, C98: the zones -/

namespace Spec

/-- Bed content of component `i` in zone `k` per volume of bed. -/
def held (rho eps : ℝ) (q c : ℕ → ℕ → ℝ) (k i : ℕ) : ℝ := rho * q k i + eps * c k i

/-- What has entered equals what is held between successive fronts. -/
def EcmBalance (vf rho eps : ℝ) (q c : ℕ → ℕ → ℝ) (v cin : ℕ → ℝ) (i : ℕ) : Prop :=
  vf * cin i = held rho eps q c 0 i * v 0 +
    ∑ k ∈ Finset.range i, held rho eps q c (k + 1) i * (v (k + 1) - v k)

/-- Flux continuity across the front between zones `k` and `k + 1`. -/
def EcmJump (vf rho eps : ℝ) (q c : ℕ → ℕ → ℝ) (v : ℕ → ℝ) (k i : ℕ) : Prop :=
  vf * (c (k + 1) i - c k i) = v k * (held rho eps q c (k + 1) i - held rho eps q c k i)

end Spec

/-- The two calls of the root finder return roots. The code does not look at `success`. -/
def EcmData.RootOk (d : EcmData) (b : EcmBed) (root : Root) : Prop :=
  (∀ j, d.fcn (d.load0 root) j = 0) ∧
    ∀ i, 1 ≤ i → i < d.n → ∀ j, d.fcnExtra b (d.zones b root (i - 1)) (d.load b root (d.zones b root (i - 1)) i) j = 0

theorem zones_frame (d : EcmData) (b : EcmBed) (root : Root) {i k : ℕ} (h : i ≤ k) :
    (d.zones b root k).q i = (d.zones b root i).q i ∧ (d.zones b root k).c i = (d.zones b root i).c i ∧
      (d.zones b root k).vw i = (d.zones b root i).vw i := by
  induction k with
  | zero => obtain rfl : i = 0 := by omega
            exact ⟨rfl, rfl, rfl⟩
  | succ k ih =>
    rcases Nat.lt_or_ge k i with h' | h'
    · obtain rfl : i = k + 1 := by omega
      exact ⟨rfl, rfl, rfl⟩
    · obtain ⟨h1, h2, h3⟩ := ih h'
      have hne : i ≠ k + 1 := by omega
      refine ⟨?_, ?_, ?_⟩
      · rw [← h1]; simp [EcmData.zones, EcmData.step, setRow, hne]
      · rw [← h2]; simp [EcmData.zones, EcmData.step, setRow, hne]
      · rw [← h3]; simp [EcmData.zones, EcmData.step, hne]

section
variable {d : EcmData} {b : EcmBed} {root : Root}

theorem run_frame {i : ℕ} (h : i < d.n) :
    (d.run b root).q i = (d.zones b root i).q i ∧ (d.run b root).c i = (d.zones b root i).c i ∧
      (d.run b root).vw i = (d.zones b root i).vw i :=
  zones_frame d b root (by omega)

/-- The first row is the influent. -/
theorem run_c0 (h : 0 < d.n) : (d.run b root).c 0 = d.co := by
  rw [(run_frame h).2.1]; simp [EcmData.zones, EcmData.first, setRow]

theorem run_wave {i : ℕ} (h : i + 1 < d.n) :
    (d.run b root).vw (i + 1) = waveOf b (d.run b root).q (d.run b root).c (d.run b root).vw (i + 1) := by
  have hz := (run_frame (b := b) (root := root) h).2.2
  rw [hz]
  have e : (d.zones b root (i + 1)).vw (i + 1) =
      waveOf b (d.zones b root (i + 1)).q (d.zones b root (i + 1)).c (d.zones b root i).vw (i + 1) := by
    simp [EcmData.zones, EcmData.step]
  rw [e]
  have hq : ∀ k, k ≤ i + 1 → (d.zones b root (i + 1)).q k = (d.run b root).q k := fun k hk => by
    rw [(zones_frame d b root hk).1, (run_frame (by omega)).1]
  have hc : ∀ k, k ≤ i + 1 → (d.zones b root (i + 1)).c k = (d.run b root).c k := fun k hk => by
    rw [(zones_frame d b root hk).2.1, (run_frame (by omega)).2.1]
  have hv : ∀ k, k ≤ i → (d.zones b root i).vw k = (d.run b root).vw k := fun k hk => by
    rw [(zones_frame d b root hk).2.2, (run_frame (by omega)).2.2]
  unfold waveOf vwDiff
  simp only [Nat.add_sub_cancel]
  rw [hq _ le_rfl, hc _ le_rfl, hc 0 (by omega), hv i le_rfl]
  congr 3
  refine Finset.sum_congr rfl fun k hk => ?_
  have hk' := Finset.mem_range.1 hk
  rw [hq k (by omega), hc k (by omega), hv k (by omega)]
  by_cases h0 : k = 0
  · simp [h0]
  · rw [if_neg h0, if_neg h0, hv (k - 1) (by omega)]

theorem run_first (hn : 0 < d.n) (hmw : 0 < d.mw 0) (hco : d.co 0 = d.c0 0 / d.mw 0) :
    (d.run b root).vw 0 = b.vf * (d.run b root).c 0 0 /
      Spec.held b.rhob b.eps (d.run b root).q (d.run b root).c 0 0 := by
  rw [run_c0 hn, (run_frame hn).2.2]
  unfold Spec.held
  rw [run_c0 hn, (run_frame hn).1, hco]
  simp only [EcmData.zones, EcmData.first, if_true]
  have e : ∀ q : ℝ, b.rhob * q + b.eps * (d.c0 0 / d.mw 0) = (q * d.mw 0 * b.rhob + d.c0 0 * b.eps) / d.mw 0 := by
    intro q; field_simp
  rw [show (setRow (fun _ _ => 0) 0 (placed 0 (d.load0 root)) 0 0 : ℝ) = placed 0 (d.load0 root) 0 by
    simp [setRow], e, ← mul_div_assoc, div_div_div_cancel_right₀ hmw.ne']

/-- C68. In every zone of a run the stored loadings and concentrations of the components present satisfy the
theory; in the first zone the concentrations are those of the influent. -/
theorem c68_run (h : d.RootOk b root) (hok : d.Ok) (hmw : ∀ i, 0 < d.mw i) (hco : ∀ i, d.co i = d.c0 i / d.mw i)
    (hq : ∀ i k, i ≤ k → k < d.n → 0 < (d.run b root).q i k) {i : ℕ} (hi : i < d.n) :
    Spec.Iast (fun j : Fin (d.n - i) => d.K (i + j)) (fun j : Fin (d.n - i) => d.invn (i + j))
      (fun j : Fin (d.n - i) => (d.run b root).q i (i + j)) (fun j : Fin (d.n - i) => (d.run b root).c i (i + j)) := by
  obtain ⟨g1, g2, -⟩ := run_frame (d := d) (b := b) (root := root) hi
  have e1 : d.n - (d.n - i) = i := by omega
  have hlt : 0 < d.n - i := by omega
  have key : ∀ x : Fin (d.n - i) → ℝ, (∀ j : Fin (d.n - i), (d.run b root).q i (i + j) = x j) →
      (∀ j : Fin (d.n - i), (d.run b root).c i (i + j) = d.fcn2e x j) →
      Spec.Iast (fun j : Fin (d.n - i) => d.K (i + j)) (fun j : Fin (d.n - i) => d.invn (i + j))
        (fun j : Fin (d.n - i) => (d.run b root).q i (i + j))
        (fun j : Fin (d.n - i) => (d.run b root).c i (i + j)) := by
    intro x hx hc
    have hp : ∀ j, 0 < x j := fun j => by rw [← hx]; exact hq _ _ (by omega) (by omega)
    have := c68_zone hok (fun j => (hp j).le) (hp ⟨0, hlt⟩)
    simp only [e1] at this
    rw [funext hx, funext hc]
    exact this
  cases i with
  | zero =>
    refine key (fun j => d.load0 root j) (fun j => ?_) (fun j => ?_)
    · rw [g1]; simp [EcmData.zones, EcmData.first, setRow, placed]
    · have h1 := h.1 ⟨j, by omega⟩
      unfold EcmData.fcn at h1
      rw [run_c0 hi, Nat.zero_add, hco, div_eq_iff (hmw _).ne']
      have h2 := c68_agree d (d.load0 root) ⟨j, by omega⟩
      have h3 : d.fcn2 (d.load0 root) ⟨j, by omega⟩ * d.mw j = d.c0 j := by
        have : d.fcn2 (d.load0 root) ⟨j, by omega⟩ * d.mw j - d.c0 j = 0 := h1
        linarith
      rw [← h3, ← h2]
      rfl
  | succ k =>
    refine key (d.load b root (d.zones b root k) (k + 1)) (fun j => ?_) (fun j => ?_)
    · rw [g1]; simp [EcmData.zones, EcmData.step, setRow, placed]
    · rw [g2]; simp [EcmData.zones, EcmData.step, setRow, placed]

/-- C69. For every component the amount that entered is held between the fronts. -/
theorem c69_balance (hmw : 0 < d.mw 0) (hco : d.co 0 = d.c0 0 / d.mw 0) {i : ℕ} (hi : i < d.n)
    (hpos : Spec.held b.rhob b.eps (d.run b root).q (d.run b root).c i i ≠ 0) :
    Spec.EcmBalance b.vf b.rhob b.eps (d.run b root).q (d.run b root).c (d.run b root).vw d.co i := by
  unfold Spec.EcmBalance
  have h0 : 0 < d.n := by omega
  cases i with
  | zero =>
    rw [Finset.range_zero, Finset.sum_empty, add_zero, run_first h0 hmw hco, mul_div_cancel₀ _ hpos, run_c0 h0]
  | succ i =>
    have hw := run_wave (b := b) (root := root) hi
    set s := d.run b root with hs
    unfold waveOf at hw
    have hd : s.q (i + 1) (i + 1) * b.rhob + s.c (i + 1) (i + 1) * b.eps =
        Spec.held b.rhob b.eps s.q s.c (i + 1) (i + 1) := by unfold Spec.held; ring
    simp only [hd, Nat.add_sub_cancel] at hw
    rw [eq_div_iff hpos] at hw
    have e : ∀ m, ∑ k ∈ Finset.range (m + 1), (s.q k (i + 1) * b.rhob + s.c k (i + 1) * b.eps) * vwDiff s.vw k =
        Spec.held b.rhob b.eps s.q s.c 0 (i + 1) * s.vw 0 +
          ∑ k ∈ Finset.range m, Spec.held b.rhob b.eps s.q s.c (k + 1) (i + 1) * (s.vw (k + 1) - s.vw k) := by
      intro m
      rw [Finset.sum_range_succ', add_comm]
      congr 1
      · simp only [vwDiff, Spec.held, if_true]; ring
      · refine Finset.sum_congr rfl fun k _ => ?_
        simp only [vwDiff, Spec.held, Nat.add_sub_cancel, if_neg (Nat.succ_ne_zero k)]; ring
    rw [e, show s.c 0 = d.co from run_c0 h0] at hw
    rw [Finset.sum_range_succ]
    linarith

/-- C69. The first front moves, and more slowly than the water in the voids. -/
theorem c69_first (hn : 0 < d.n) (hmw : 0 < d.mw 0) (hco : d.co 0 = d.c0 0 / d.mw 0) (hv : 0 < b.vf)
    (hr : 0 < b.rhob) (he : 0 < b.eps) (hc : 0 < d.c0 0) (hq : 0 < (d.run b root).q 0 0) :
    0 < (d.run b root).vw 0 ∧ (d.run b root).vw 0 < b.vf / b.eps := by
  rw [run_first hn hmw hco]
  unfold Spec.held
  rw [run_c0 hn]
  have h1 : 0 < d.co 0 := by rw [hco]; positivity
  constructor
  · positivity
  · rw [div_lt_div_iff₀ (by positivity) he]
    have : 0 < b.vf * (b.rhob * (d.run b root).q 0 0) := by positivity
    nlinarith

/-- The flux condition across one front needs one root. -/
theorem jump_at {k i : ℕ}
    (h : ∀ j, d.fcnExtra b (d.zones b root k) (d.load b root (d.zones b root k) (k + 1)) j = 0) (hk : k < i)
    (hi : i < d.n) (hv : b.vf - (d.run b root).vw k * b.eps ≠ 0) :
    Spec.EcmJump b.vf b.rhob b.eps (d.run b root).q (d.run b root).c (d.run b root).vw k i := by
  have hlt : i - (k + 1) < d.n - (k + 1) := by omega
  have h2 := h ⟨i - (k + 1), hlt⟩
  set x := d.load b root (d.zones b root k) (k + 1) with hx
  obtain ⟨f1, f2, f3⟩ := run_frame (d := d) (b := b) (root := root) (i := k) (by omega)
  obtain ⟨g1, g2, -⟩ := run_frame (d := d) (b := b) (root := root) (i := k + 1) (by omega)
  have hin : k + 1 ≤ i ∧ i - (k + 1) < d.n - (k + 1) := ⟨hk, hlt⟩
  have hq : (d.run b root).q (k + 1) i = x ⟨i - (k + 1), hlt⟩ := by
    rw [g1]; simp [EcmData.zones, EcmData.step, setRow, placed, hin, ← hx]
  have hc : (d.run b root).c (k + 1) i = d.fcn2e x ⟨i - (k + 1), hlt⟩ := by
    rw [g2]; simp [EcmData.zones, EcmData.step, setRow, placed, hin, ← hx]
  unfold EcmData.fcnExtra at h2
  have e1 : d.n - (d.n - (k + 1)) = k + 1 := by omega
  have e2 : k + 1 + (i - (k + 1)) = i := by omega
  simp only [e1, e2, Nat.add_sub_cancel] at h2
  rw [← hc, ← hq, ← f1, ← f2, ← f3] at h2
  unfold Spec.EcmJump Spec.held
  set s := d.run b root with hs
  have e3 : (s.q (k + 1) i - s.q k i) * b.rhob * s.vw k / (b.vf - s.vw k * b.eps) = s.c (k + 1) i - s.c k i := by
    linarith
  rw [div_eq_iff hv] at e3
  linarith

/-- C98. Across every front every remaining component satisfies the flux condition. -/
theorem c98_jump (h : d.RootOk b root) {k i : ℕ} (hk : k < i) (hi : i < d.n)
    (hv : b.vf - (d.run b root).vw k * b.eps ≠ 0) :
    Spec.EcmJump b.vf b.rhob b.eps (d.run b root).q (d.run b root).c (d.run b root).vw k i := by
  refine jump_at ?_ hk hi hv
  simpa only [Nat.add_sub_cancel] using h.2 (k + 1) (by omega) (by omega)

/-- The speed of a front follows from the flux conditions across those behind it. -/
theorem front_at (hmw : 0 < d.mw 0) (hco : d.co 0 = d.c0 0 / d.mw 0) {i : ℕ} (hi : i < d.n)
    (hpos : Spec.held b.rhob b.eps (d.run b root).q (d.run b root).c i i ≠ 0)
    (hJ : ∀ k < i, Spec.EcmJump b.vf b.rhob b.eps (d.run b root).q (d.run b root).c (d.run b root).vw k i) :
    (d.run b root).vw i = b.vf * (d.run b root).c i i /
      Spec.held b.rhob b.eps (d.run b root).q (d.run b root).c i i := by
  have hb := c69_balance (b := b) (root := root) hmw hco hi hpos
  have h0 : (d.run b root).c 0 = d.co := run_c0 (by omega)
  set s := d.run b root with hs
  set F := fun k => Spec.held b.rhob b.eps s.q s.c k i with hF
  have key : ∀ m, m ≤ i → F 0 * s.vw 0 + ∑ k ∈ Finset.range m, F (k + 1) * (s.vw (k + 1) - s.vw k) =
      F m * s.vw m - b.vf * (s.c m i - s.c 0 i) := by
    intro m
    induction m with
    | zero => intro _; simp
    | succ m ih =>
      intro hm
      have hj := hJ m (by omega)
      unfold Spec.EcmJump at hj
      rw [Finset.sum_range_succ, ← add_assoc, ih (by omega)]
      have hj' : b.vf * (s.c (m + 1) i - s.c m i) = s.vw m * (F (m + 1) - F m) := hj
      linarith
  have := key i le_rfl
  unfold Spec.EcmBalance at hb
  rw [eq_div_iff hpos]
  have hb' : b.vf * d.co i = F 0 * s.vw 0 + ∑ k ∈ Finset.range i, F (k + 1) * (s.vw (k + 1) - s.vw k) := hb
  rw [this, h0] at hb'
  have : F i * s.vw i = b.vf * s.c i i := by linarith
  rw [← this, mul_comm]

/-- C98. Each front moves at the speed at which its own component travels alone. -/
theorem c98_front (h : d.RootOk b root) (hmw : 0 < d.mw 0) (hco : d.co 0 = d.c0 0 / d.mw 0) {i : ℕ} (hi : i < d.n)
    (hpos : Spec.held b.rhob b.eps (d.run b root).q (d.run b root).c i i ≠ 0)
    (hv : ∀ k < i, b.vf - (d.run b root).vw k * b.eps ≠ 0) :
    (d.run b root).vw i = b.vf * (d.run b root).c i i /
      Spec.held b.rhob b.eps (d.run b root).q (d.run b root).c i i := by
  exact front_at hmw hco hi hpos fun k hk => c98_jump h hk hi (hv k hk)

/-- C98. If the loadings found are positive every front moves and no front outruns the water. -/
theorem c98_speed (h : d.RootOk b root) (hok : d.Ok) (hmw : 0 < d.mw 0) (hco : d.co 0 = d.c0 0 / d.mw 0)
    (hvf : 0 < b.vf) (hr : 0 < b.rhob) (he : 0 < b.eps) (hc0 : 0 < d.c0 0)
    (hq : ∀ i k, i ≤ k → k < d.n → 0 < (d.run b root).q i k) {i : ℕ} (hi : i < d.n) :
    0 < (d.run b root).vw i ∧ (d.run b root).vw i < b.vf / b.eps := by
  have hc : ∀ i < d.n, 0 < (d.run b root).c i i := by
    intro i hi
    cases i with
    | zero => rw [run_c0 hi, hco]; positivity
    | succ k =>
      obtain ⟨g1, g2, -⟩ := run_frame (d := d) (b := b) (root := root) (i := k + 1) hi
      have hlt : 0 < d.n - (k + 1) := by omega
      set x := d.load b root (d.zones b root k) (k + 1) with hx
      have hxq : ∀ j : Fin (d.n - (k + 1)), 0 < x j := by
        intro j
        have := hq (k + 1) (k + 1 + j) (by omega) (by omega)
        rw [g1] at this
        simpa [EcmData.zones, EcmData.step, setRow, placed, ← hx] using this
      have hcc : (d.run b root).c (k + 1) (k + 1) = d.fcn2e x ⟨0, hlt⟩ := by
        rw [g2]; simp [EcmData.zones, EcmData.step, setRow, placed, ← hx, hlt]
      rw [hcc]
      have hne : (Finset.univ : Finset (Fin (d.n - (k + 1)))).Nonempty := ⟨⟨0, hlt⟩, Finset.mem_univ _⟩
      unfold EcmData.fcn2e
      exact mul_pos (div_pos (hxq _) (Finset.sum_pos (fun j _ => hxq j) hne))
        (Real.rpow_pos_of_pos (div_pos (Finset.sum_pos (fun j _ => mul_pos (hok.xn_pos _) (hxq j)) hne)
          (mul_pos (hok.xn_pos _) (hok _).1)) _)
  have hheld : ∀ i < d.n, 0 < Spec.held b.rhob b.eps (d.run b root).q (d.run b root).c i i := by
    intro i hi
    have := hc i hi
    have := hq i i le_rfl hi
    unfold Spec.held
    positivity
  induction i using Nat.strong_induction_on with
  | _ i ih =>
    have hne : ∀ k < i, b.vf - (d.run b root).vw k * b.eps ≠ 0 := by
      intro k hk
      have := (ih k hk (by omega)).2
      rw [lt_div_iff₀ he] at this
      linarith
    rw [c98_front h hmw hco hi (hheld i hi).ne' hne]
    have h1 := hc i hi
    have h2 := hq i i le_rfl hi
    refine ⟨div_pos (mul_pos hvf h1) (hheld i hi), ?_⟩
    rw [div_lt_div_iff₀ (hheld i hi) he]
    unfold Spec.held
    have : 0 < b.vf * (b.rhob * (d.run b root).q i i) := by positivity
    nlinarith

/-- C98. Across a front a component's loading and concentration rise or fall together. -/
theorem c98_together (h : d.RootOk b root) {k i : ℕ} (hk : k < i) (hi : i < d.n) (hr : 0 < b.rhob)
    (hv : 0 < (d.run b root).vw k) (hv' : (d.run b root).vw k * b.eps < b.vf) :
    (d.run b root).q k i < (d.run b root).q (k + 1) i ↔ (d.run b root).c k i < (d.run b root).c (k + 1) i := by
  have hJ := c98_jump h hk hi (by linarith)
  unfold Spec.EcmJump Spec.held at hJ
  set s := d.run b root
  have e : (b.vf - s.vw k * b.eps) * (s.c (k + 1) i - s.c k i) = s.vw k * b.rhob * (s.q (k + 1) i - s.q k i) := by
    linarith
  have hA : 0 < b.vf - s.vw k * b.eps := by linarith
  have hB : 0 < s.vw k * b.rhob := mul_pos hv hr
  rw [← sub_pos, ← sub_pos (b := s.c k i)]
  constructor
  · intro hq
    have : 0 < (b.vf - s.vw k * b.eps) * (s.c (k + 1) i - s.c k i) := by rw [e]; exact mul_pos hB hq
    exact (mul_pos_iff_of_pos_left hA).1 this
  · intro hc
    have : 0 < s.vw k * b.rhob * (s.q (k + 1) i - s.q k i) := by rw [← e]; exact mul_pos hA hc
    exact (mul_pos_iff_of_pos_left hB).1 this
end

/-! ### A concrete run: two square-root isotherms -/

/-- Two compounds with `1/n = 1/2`; the second is displaced by the first. -/
noncomputable def exEcm : EcmData := ecmData false 2 fun i => if i = 0 then ⟨2, 1 / 2, 1, 1 / 2⟩ else ⟨1, 1 / 2, 1, 2⟩

noncomputable def exEcmBed : EcmBed := ⟨5, 1, 1 / 2, none⟩

/-- The roots: loadings 1, 1 in the first zone, 3/2 in the second. -/
noncomputable def exRoot : Root := fun m _ _ _ => if m = 1 then 3 / 2 else 1

theorem exEcm_ok : exEcm.Ok := ecmData_ok (by intro i; split <;> norm_num)

theorem exEcm_vw0 : (exEcm.zones exEcmBed exRoot 0).vw 0 = 2 := by
  norm_num [EcmData.zones, EcmData.first, exEcm, exEcmBed, exRoot, ecmData, placed, EcmData.load0]

theorem exEcm_root : exEcm.RootOk exEcmBed exRoot := by
  constructor
  · intro j
    have hj : (j : ℕ) = 0 ∨ (j : ℕ) = 1 := by have := j.2; change (j : ℕ) < 2 at this; omega
    have e : ∀ x : Fin exEcm.n → ℝ, ∑ k, x k = x ⟨0, by decide⟩ + x ⟨1, by decide⟩ := fun x => Fin.sum_univ_two (f := x)
    unfold EcmData.fcn EcmData.fcn2
    rw [e, e]
    rcases hj with hj | hj <;> rw [hj] <;>
      norm_num [EcmData.load0, exRoot, exEcm, ecmData, ← Real.rpow_natCast]
  · intro i h1 h2 j
    have h2' : i < 2 := h2
    obtain rfl : i = 1 := by omega
    have hl : exEcm.load exEcmBed exRoot (exEcm.zones exEcmBed exRoot (1 - 1)) 1 = fun _ => 3 / 2 := by
      funext k
      have : exEcm.n - 1 = 1 := rfl
      simp [EcmData.load, exRoot, this]
    rw [hl]
    suffices key : exEcm.fcnExtra exEcmBed (exEcm.zones exEcmBed exRoot 0) (m := 1) (fun _ => 3 / 2) 0 = 0 by
      have hj : ∀ j : Fin 1, exEcm.fcnExtra exEcmBed (exEcm.zones exEcmBed exRoot 0) (fun _ => 3 / 2) j = 0 := by
        intro j; rw [Subsingleton.elim j 0]; exact key
      exact hj j
    have hv := exEcm_vw0
    have hq : (exEcm.zones exEcmBed exRoot 0).q 0 1 = 1 := by
      norm_num [EcmData.zones, EcmData.first, exEcm, exRoot, ecmData, placed, EcmData.load0, setRow]
    have hc : (exEcm.zones exEcmBed exRoot 0).c 0 1 = 2 := by
      norm_num [EcmData.zones, EcmData.first, exEcm, exRoot, ecmData, placed, EcmData.load0, setRow]
    have hn : exEcm.n - 1 = 1 := rfl
    unfold EcmData.fcnExtra EcmData.fcn2e
    simp only [Fin.sum_univ_one, Fin.val_zero, Nat.add_zero, hn, Nat.sub_self, hv, hq, hc]
    norm_num [exEcm, exEcmBed, ecmData]

/-- The run meets the hypotheses of C68, C69 and C98, and the displaced component exceeds its influent. -/
theorem exEcm_displaced : (∀ i k, i ≤ k → k < exEcm.n → 0 < (exEcm.run exEcmBed exRoot).q i k) ∧
    (exEcm.run exEcmBed exRoot).c 0 1 < (exEcm.run exEcmBed exRoot).c 1 1 := by
  have hr : exEcm.run exEcmBed exRoot = exEcm.zones exEcmBed exRoot 1 := rfl
  have hl : exEcm.load exEcmBed exRoot (exEcm.zones exEcmBed exRoot 0) 1 = fun _ => 3 / 2 := by
    funext k
    have : exEcm.n - 1 = 1 := rfl
    simp [EcmData.load, exRoot, this]
  have hn : exEcm.n = 2 := rfl
  rw [hr]
  constructor
  · intro i k h1 h2
    have h2' : k < 2 := h2
    obtain rfl | rfl : i = 0 ∨ i = 1 := by omega
    · have : (exEcm.zones exEcmBed exRoot 1).q 0 k = 1 := by
        norm_num [EcmData.zones, EcmData.first, EcmData.step, exRoot, placed, EcmData.load0, setRow, hn, h2']
      rw [this]; norm_num
    · obtain rfl : k = 1 := by omega
      have : (exEcm.zones exEcmBed exRoot 1).q 1 1 = 3 / 2 := by
        rw [EcmData.zones, EcmData.step]
        simp only [hl]
        norm_num [setRow, placed, hn]
      rw [this]; norm_num
  · have h1 : (exEcm.zones exEcmBed exRoot 1).c 0 1 = 2 := by
      norm_num [EcmData.zones, EcmData.first, EcmData.step, setRow, exEcm, ecmData]
    have h2 : (exEcm.zones exEcmBed exRoot 1).c 1 1 = 9 / 4 := by
      have e : exEcm.fcn2e (m := 1) (fun _ => 3 / 2) 0 = 9 / 4 := by
        unfold EcmData.fcn2e
        simp only [Fin.sum_univ_one]
        norm_num [exEcm, ecmData]
      rw [EcmData.zones, EcmData.step]
      simp only [hl]
      rw [← e]
      norm_num [setRow, placed, hn]
      rfl
    rw [h1, h2]; norm_num

/-! ### C97 -/

/-- The points of the plotted curve: constant `y` up to the next front, then the value behind it. -/
noncomputable def steps (f g : ℕ → ℝ) (xe : ℝ) : ℝ → ℝ → ℕ → List (ℝ × ℝ)
  | x, y, 0 => [(x, y), (xe, y)]
  | x, y, n + 1 => (x, y) :: (f n, y) :: steps f g xe (f n) (g n) n

theorem steps_zip (f g : ℕ → ℝ) (xe x y : ℝ) (n : ℕ) :
    ((x :: ((List.range n).reverse.flatMap fun i => [f i, f i])) ++ [xe]).zip
      ([y, y] ++ (List.range n).reverse.flatMap fun i => [g i, g i]) = steps f g xe x y n := by
  induction n generalizing x y with
  | zero => rfl
  | succ n ih =>
    rw [List.range_succ, List.reverse_append, List.reverse_singleton]
    simp only [List.flatMap_cons, List.cons_append, List.zip_cons_cons, List.nil_append]
    unfold steps
    have := ih (f n) (g n)
    simp only [List.cons_append, List.nil_append, List.zip_cons_cons] at this
    rw [this]

theorem steps_cons (f g : ℕ → ℝ) (xe x y : ℝ) (n : ℕ) :
    ∃ p r, steps f g xe x y n = (x, y) :: p :: r := by
  cases n <;> exact ⟨_, _, rfl⟩

theorem steps_interp (f g : ℕ → ℝ) (xe x y : ℝ) (n : ℕ) (t : ℝ) :
    interpExtrap (steps f g xe x y (n + 1)) t =
      if t ≤ f n then y else interpExtrap (steps f g xe (f n) (g n) n) t := by
  obtain ⟨p, r, e⟩ := steps_cons f g xe (f n) (g n) n
  rw [show steps f g xe x y (n + 1) = (x, y) :: (f n, y) :: steps f g xe (f n) (g n) n from rfl, e]
  simp only [interpExtrap]
  split
  · simp
  · rfl

theorem steps_last (f g : ℕ → ℝ) (xe x y t : ℝ) : interpExtrap (steps f g xe x y 0) t = y := by
  simp [steps, interpExtrap]

theorem steps_between {f g : ℕ → ℝ} (xe : ℝ) {n k : ℕ} (hk : k + 1 < n)
    (hf : ∀ i j, i < j → j < n → f j < f i) {t : ℝ} (h1 : f (k + 1) < t) (h2 : t ≤ f k) (x y : ℝ) :
    interpExtrap (steps f g xe x y n) t = g (k + 1) := by
  induction n generalizing x y with
  | zero => omega
  | succ n ih =>
    rw [steps_interp]
    have hn : f n < t := by
      rcases Nat.lt_or_ge (k + 1) n with h | h
      · exact lt_trans (hf _ _ h (by omega)) h1
      · obtain rfl : k + 1 = n := by omega
        exact h1
    rw [if_neg (not_le.2 hn)]
    rcases Nat.lt_or_ge (k + 1) n with h | h
    · exact ih h (fun i j hij hj => hf i j hij (by omega)) _ _
    · obtain rfl : k + 1 = n := by omega
      rw [steps_interp, if_pos h2]

theorem steps_after {f g : ℕ → ℝ} (xe : ℝ) {n : ℕ} (hf : ∀ j < n, f j ≤ f 0) {t : ℝ} (h1 : f 0 < t)
    (x y : ℝ) : interpExtrap (steps f g xe x y n) t = if n = 0 then y else g 0 := by
  induction n generalizing x y with
  | zero => simp [steps_last]
  | succ n ih =>
    rw [steps_interp, if_neg (not_le.2 (lt_of_le_of_lt (hf n (by omega)) h1)), ih (fun j hj => hf j (by omega))]
    by_cases h : n = 0
    · subst h; simp
    · simp [h]

/-- The fronts arrive in the reverse order of the components. `interp1d` sorts its points, so this order is also
what makes the list of points the curve. -/
def Spec.FrontsApart (n : ℕ) (v : ℕ → ℝ) : Prop := 0 < n ∧ 0 < v 0 ∧ ∀ i j, i < j → j < n → v i < v j

theorem days_anti {b : EcmBed} {s : EcmState} {n : ℕ} (hL : 0 < b.L.getD 2.765) (h : Spec.FrontsApart n s.vw) :
    ∀ i j, i < j → j < n → ecmDays b s j < ecmDays b s i := by
  intro i j hij hj
  obtain ⟨-, h0, h⟩ := h
  have hi : 0 < s.vw i := by
    rcases Nat.eq_zero_or_pos i with rfl | hi
    · exact h0
    · exact h0.trans (h 0 i hi (by omega))
  unfold ecmDays
  have := h i j hij hj
  exact div_lt_div_of_pos_left (by positivity) (by positivity) (by linarith)

/-- C97. The abscissas handed to the interpolation are in order, starting at the start, as reading it segment by
segment supposes. -/
theorem c97_sorted {d : EcmData} {b : EcmBed} {s : EcmState} (hL : 0 < b.L.getD 2.765)
    (h : Spec.FrontsApart d.n s.vw) :
    (ecmX d.n (ecmDays b s)).Pairwise (· ≤ ·) ∧ (ecmX d.n (ecmDays b s)).head? = some 0 := by
  have hpos : ∀ i, i < d.n → 0 ≤ ecmDays b s i := by
    intro i hi
    have hv : 0 < s.vw i := by
      have h0 := h.2.1
      rcases Nat.eq_zero_or_pos i with rfl | h1
      · exact h0
      · exact h0.trans (h.2.2 0 i h1 hi)
    unfold ecmDays
    positivity
  have hle : ∀ i j, i ≤ j → j < d.n → ecmDays b s j ≤ ecmDays b s i := by
    intro i j hij hj
    rcases hij.eq_or_lt with rfl | h1
    · exact le_rfl
    · exact (days_anti hL h i j h1 hj).le
  refine ⟨?_, rfl⟩
  unfold ecmX
  rw [List.pairwise_append, List.pairwise_cons, List.pairwise_flatMap]
  refine ⟨⟨fun x hx => ?_, fun a _ => by simp, ?_⟩, by simp, fun x hx y hy => ?_⟩
  · simp only [List.mem_flatMap, List.mem_reverse, List.mem_range, List.mem_cons, List.not_mem_nil, or_false,
      or_self] at hx
    obtain ⟨i, hi, rfl⟩ := hx
    exact hpos i hi
  · rw [List.pairwise_reverse]
    have hr : (List.range d.n).Pairwise (fun a b => a < b ∧ b < d.n) := by
      refine List.Pairwise.and_mem.1 (List.pairwise_lt_range (n := d.n)) |>.imp ?_
      rintro a b ⟨-, hb, hab⟩
      exact ⟨hab, List.mem_range.1 hb⟩
    refine hr.imp ?_
    rintro a c ⟨hac, hc⟩ x hx y hy
    simp only [List.mem_cons, List.not_mem_nil, or_false, or_self] at hx hy
    subst hx hy
    exact hle a c hac.le hc
  · simp only [List.mem_singleton] at hy
    subst hy
    have h0 := hpos 0 h.1
    simp only [List.mem_cons, List.mem_flatMap, List.mem_reverse, List.mem_range, List.not_mem_nil, or_false,
      or_self] at hx
    rcases hx with rfl | ⟨i, hi, rfl⟩
    · linarith
    · have := hle 0 i (Nat.zero_le _) hi
      linarith

/-- C97. Before the fastest front arrives the effluent is clean. -/
theorem c97_before {d : EcmData} {b : EcmBed} {s : EcmState} (hn : 0 < d.n) (i : ℕ) {t : ℝ}
    (ht : t ≤ ecmDays b s (d.n - 1)) : d.plot b s i t = 0 := by
  unfold EcmData.plot ecmX EcmData.y
  rw [steps_zip]
  obtain ⟨m, hm⟩ : ∃ m, d.n = m + 1 := ⟨d.n - 1, by omega⟩
  rw [hm] at ht ⊢
  rw [steps_interp, if_pos (by simpa using ht)]

/-- C97. Between two fronts the plotted concentration is that of the zone between them, in mass units. -/
theorem c97_between {d : EcmData} {b : EcmBed} {s : EcmState} (hL : 0 < b.L.getD 2.765)
    (h : Spec.FrontsApart d.n s.vw) (i : ℕ) {k : ℕ} (hk : k + 1 < d.n) {t : ℝ}
    (h1 : ecmDays b s (k + 1) < t) (h2 : t ≤ ecmDays b s k) : d.plot b s i t = s.c (k + 1) i * d.mw i := by
  unfold EcmData.plot ecmX EcmData.y
  rw [steps_zip, steps_between _ hk (days_anti hL h) h1 h2]

/-- C97. After the last front the effluent is the influent. -/
theorem c97_after {d : EcmData} {b : EcmBed} {root : Root} (hL : 0 < b.L.getD 2.765)
    (h : Spec.FrontsApart d.n (d.run b root).vw) {i : ℕ} (hmw : d.mw i ≠ 0) (hco : d.co i = d.c0 i / d.mw i)
    {t : ℝ} (ht : ecmDays b (d.run b root) 0 < t) : d.plot b (d.run b root) i t = d.c0 i := by
  have hn := h.1
  unfold EcmData.plot ecmX EcmData.y
  rw [steps_zip, steps_after _ _ ht, if_neg (by omega), run_c0 hn, hco, div_mul_cancel₀ _ hmw]
  intro j hj
  rcases Nat.eq_zero_or_pos j with rfl | h0
  · exact le_rfl
  · exact (days_anti hL h 0 j h0 hj).le

/-- Fronts of speed 2 and 30/7, as in the run above. -/
example : Spec.FrontsApart 2 (fun k => if k = 0 then 2 else 30 / 7) := by
  refine ⟨by norm_num, by norm_num, fun i j h1 h2 => ?_⟩
  obtain ⟨rfl, rfl⟩ : i = 0 ∧ j = 1 := by omega
  norm_num

/-! ### C99 -/

/-- C99. In the days reported a front covers the bed, whose length is in metres and whose speed is in cm/s. -/
theorem c99_days {b : EcmBed} {s : EcmState} {i : ℕ} (hv : s.vw i ≠ 0) {L : ℝ} (hL : b.L = some L) :
    ecmDays b s i * 86400 * s.vw i = L * 100 := by
  unfold ecmDays
  rw [hL]
  simp only [Option.getD_some]
  field_simp
  ring

/-- C99. Without a length a bed of 2.765 m is assumed. -/
theorem c99_default {b : EcmBed} {s : EcmState} {i : ℕ} (hv : s.vw i ≠ 0) (hL : b.L = none) :
    ecmDays b s i * 86400 * s.vw i = 276.5 := by
  unfold ecmDays
  rw [hL]
  simp only [Option.getD_none]
  field_simp
  norm_num

/-- C99. The bed volumes reported are the water applied up to then over the bed volume. -/
theorem c99_bvf {b : EcmBed} {s : EcmState} {i : ℕ} (hv : s.vw i ≠ 0) {L : ℝ} (hL : b.L = some L) (hL0 : L ≠ 0)
    {area : ℝ} (ha : area ≠ 0) :
    ecmBvf b s i = b.vf * area * (ecmDays b s i * 86400) / (area * (L * 100)) := by
  rw [← c99_days hv hL]
  have h : ecmDays b s i ≠ 0 := by
    intro h0
    have := c99_days hv hL
    rw [h0] at this
    simp at this
    exact hL0 this
  unfold ecmBvf
  field_simp

/-- C99. The usage reported is the water treated per mass of carbon: times the bed density it is the bed volumes. -/
theorem c99_usage {b : EcmBed} {s : EcmState} {i : ℕ} (hr : b.rhob ≠ 0) :
    ecmUsage b s i * b.rhob = ecmBvf b s i := by
  unfold ecmUsage
  rw [one_div_div, div_mul_cancel₀ _ hr]

/-- C99. The velocity is the flow over the area: gallons per minute per square foot become cm/s, and g/mL g/L. -/
theorem c99_units (flrt rho void : ℝ) (L : Option ℝ) (ft2 : ℝ) :
    (ecmBed flrt rho void L).vf * 60 * (ft2 * 30.48 ^ 2) = flrt * ft2 * 3785.411784 ∧
      (ecmBed flrt rho void L).rhob = rho * 1000 := by
  unfold ecmBed
  constructor
  · norm_num; ring
  · norm_num

/-- C99. The single-solute capacity reported is the carbon per litre that holds the influent at equilibrium:
the loading `q = K Co^(1/n)` times the dose in g/L is the influent concentration. -/
theorem c99_sstc {d : EcmData} {i : ℕ} (hK : d.K i ≠ 0) (hc : 0 < d.co i) {q : ℝ}
    (hq : Spec.Freundlich (d.K i) (d.invn i) q (d.co i)) : q * (d.sstc i / 1000) = d.co i := by
  unfold Spec.Freundlich at hq
  unfold EcmData.sstc
  rw [hq, Real.rpow_sub hc, Real.rpow_one]
  have := (Real.rpow_pos_of_pos hc (d.invn i)).ne'
  field_simp

/-- A bed of 2 m with a front of 2 cm/s meets the hypotheses. -/
example : ecmDays ⟨5, 500, 1 / 2, some 2⟩ ⟨fun _ _ => 1, fun _ _ => 1, fun _ => 2⟩ 0 * 86400 * 2 = 200 := by
  have := c99_days (b := ⟨5, 500, 1 / 2, some 2⟩) (s := ⟨fun _ _ => 1, fun _ _ => 1, fun _ => 2⟩) (i := 0)
    (by norm_num) rfl
  norm_num at this ⊢
  exact this

/-! ### C100, C101: the fit -/

/-- Every front day and every peak agree with the data. -/
def Spec.FitsAll (d : EcmData) (b : EcmBed) (s : EcmState) (brk peak : ℕ → ℝ) : Prop :=
  ∀ i < d.n, ecmDays b s i = brk i ∧ s.c i i / s.c 0 i = peak i

/-- C100. A zero objective means that days and peaks agree. -/
def C100 : Prop := ∀ (d : EcmData) (b : EcmBed) (s : EcmState) (brk peak : ℕ → ℝ) (w : ℝ), 0 < w →
  (ecmFitErr d b s brk peak w = 0 ↔ Spec.FitsAll d b s brk peak)

theorem sum_sq_eq_zero {n : ℕ} (f : ℕ → ℝ) : ∑ i ∈ Finset.range n, f i ^ 2 = 0 ↔ ∀ i < n, f i = 0 := by
  rw [Finset.sum_eq_zero_iff_of_nonneg (fun i _ => sq_nonneg _)]
  simp

/-- C100, what holds: the objective is never negative, a full agreement scores zero, and a zero score means that the
days all agree or the peaks all agree. Missing: that both do, because the two errors are multiplied. -/
theorem c100_partial (d : EcmData) (b : EcmBed) (s : EcmState) (brk peak : ℕ → ℝ) {w : ℝ} (hw : 0 < w) :
    0 ≤ ecmFitErr d b s brk peak w ∧ (Spec.FitsAll d b s brk peak → ecmFitErr d b s brk peak w = 0) ∧
      (ecmFitErr d b s brk peak w = 0 ↔
        (∀ i < d.n, ecmDays b s i = brk i) ∨ ∀ i < d.n, s.c i i / s.c 0 i = peak i) := by
  have h1 : fitErr1 d.n (ecmDays b s) brk w = 0 ↔ ∀ i < d.n, ecmDays b s i = brk i := by
    unfold fitErr1
    rw [mul_eq_zero, or_iff_left hw.ne', sum_sq_eq_zero (fun i => ecmDays b s i - brk i)]
    simp only [sub_eq_zero]
  have h2 : fitErr2 d.n s.c peak = 0 ↔ ∀ i < d.n, s.c i i / s.c 0 i = peak i := by
    unfold fitErr2
    rw [sum_sq_eq_zero (fun i => s.c i i / s.c 0 i - peak i)]
    simp only [sub_eq_zero]
  have h3 : ecmFitErr d b s brk peak w = 0 ↔
      (∀ i < d.n, ecmDays b s i = brk i) ∨ ∀ i < d.n, s.c i i / s.c 0 i = peak i := by
    unfold ecmFitErr
    rw [mul_eq_zero, or_iff_left (by norm_num), mul_eq_zero, h1, h2]
  refine ⟨?_, fun h => h3.2 (Or.inl fun i hi => (h i hi).1), h3⟩
  unfold ecmFitErr fitErr1 fitErr2
  have e1 : 0 ≤ ∑ i ∈ Finset.range d.n, (ecmDays b s i - brk i) ^ 2 := Finset.sum_nonneg fun i _ => sq_nonneg _
  have e2 : 0 ≤ ∑ i ∈ Finset.range d.n, (s.c i i / s.c 0 i - peak i) ^ 2 := Finset.sum_nonneg fun i _ => sq_nonneg _
  positivity

/-- C100 is false: any prediction of the days scores zero if the peaks agree, and with one component they agree
whenever the peak given is 1. -/
theorem c100_false : ¬ C100 := by
  intro h
  have h1 := (h exEcm exEcmBed ⟨fun _ _ => 1, fun _ _ => 1, fun _ => 1⟩ (fun _ => 0) (fun _ => 1) 2 (by norm_num)).1
    ((c100_partial exEcm exEcmBed _ _ _ (by norm_num)).2.2.2 (Or.inr (by intro i _; norm_num)))
  have := (h1 0 (by decide)).1
  norm_num [ecmDays, exEcmBed] at this

/-- C101. After a fit the object holds the trial with the least objective. -/
def C101 : Prop := ∀ (d : EcmData) (obj : (ℕ → ℝ) × (ℕ → ℝ) → ℝ) (trials : List ((ℕ → ℝ) × (ℕ → ℝ)))
  (best : (ℕ → ℝ) × (ℕ → ℝ)), best ∈ trials → (∀ t ∈ trials, t ≠ best → obj best < obj t) →
  (d.afterFit trials).K = best.1 ∧ (d.afterFit trials).invn = best.2

/-- C101, what holds: the object holds the last trial, so the best one exactly if that came last. The count,
molecular weights and influent are untouched and the exponent is kept consistent. Missing: the best trial. -/
theorem c101_partial (d : EcmData) (trials : List ((ℕ → ℝ) × (ℕ → ℝ))) (t : (ℕ → ℝ) × (ℕ → ℝ)) :
    (d.afterFit (trials ++ [t])).K = t.1 ∧ (d.afterFit (trials ++ [t])).invn = t.2 ∧
      (∀ i, (d.afterFit (trials ++ [t])).xn i = 1 / t.2 i) ∧ (d.afterFit (trials ++ [t])).n = d.n ∧
      (d.afterFit (trials ++ [t])).mw = d.mw ∧ (d.afterFit (trials ++ [t])).c0 = d.c0 ∧
      (d.afterFit (trials ++ [t])).co = d.co := by
  have key : ∀ l : List ((ℕ → ℝ) × (ℕ → ℝ)), (d.afterFit l).n = d.n ∧ (d.afterFit l).mw = d.mw ∧
      (d.afterFit l).c0 = d.c0 ∧ (d.afterFit l).co = d.co := by
    intro l
    unfold EcmData.afterFit
    induction l generalizing d with
    | nil => exact ⟨rfl, rfl, rfl, rfl⟩
    | cons a l ih => exact ih (d.trial a.1 a.2)
  have e : d.afterFit (trials ++ [t]) = (d.afterFit trials).trial t.1 t.2 := by
    unfold EcmData.afterFit; simp
  obtain ⟨h1, h2, h3, h4⟩ := key trials
  rw [e]
  exact ⟨rfl, rfl, fun _ => rfl, h1, h2, h3, h4⟩

/-- C101 is false: the better of two trials is lost if it comes first. -/
theorem c101_false : ¬ C101 := by
  intro h
  have h1 := (h exEcm (fun t => t.1 0) [(fun _ => 1, fun _ => 1), (fun _ => 2, fun _ => 1)] (fun _ => 1, fun _ => 1)
    (by simp) (by
      intro t ht hne
      simp only [List.mem_cons, List.not_mem_nil, or_false] at ht
      rcases ht with rfl | rfl
      · exact absurd rfl hne
      · norm_num)).1
  have h2 := congrFun h1 0
  norm_num [EcmData.afterFit, EcmData.trial] at h2

end WTM
