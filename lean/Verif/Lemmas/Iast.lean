import Mathlib.Analysis.SpecialFunctions.Pow.Continuity
import Mathlib.Analysis.Convex.SpecificFunctions.Basic
import Mathlib.Topology.Order.IntermediateValue
import Mathlib.Algebra.BigOperators.Fin
import Mathlib.Algebra.BigOperators.Field

/-! Ideal adsorbed solution theory for Freundlich components can be inverted: concentrations determine loadings. -/
set_option autoImplicit false
namespace WTM
open BigOperators Set

section
variable {m : ℕ}

/-- Concentrations in equilibrium with the loadings `x`; `ν` are the reciprocal exponents. -/
noncomputable def iastC (ν K x : Fin m → ℝ) (i : Fin m) : ℝ :=
  x i / (∑ j, x j) * ((∑ j, ν j * x j) / (ν i * K i)) ^ ν i

variable {ν K : Fin m → ℝ}

/-- Concentration of the pure component at spreading pressure `S`. -/
noncomputable def iastG (ν K : Fin m → ℝ) (S : ℝ) (i : Fin m) : ℝ := (S / (ν i * K i)) ^ ν i

theorem iastG_pos (hν : ∀ i, 0 < ν i) (hK : ∀ i, 0 < K i) {S : ℝ} (hS : 0 < S) (i : Fin m) : 0 < iastG ν K S i :=
  Real.rpow_pos_of_pos (div_pos hS (mul_pos (hν i) (hK i))) _

theorem iastG_lt (hν : ∀ i, 0 < ν i) (hK : ∀ i, 0 < K i) {S T : ℝ} (hS : 0 < S) (h : S < T) (i : Fin m) :
    iastG ν K S i < iastG ν K T i := by
  have := mul_pos (hν i) (hK i)
  exact Real.rpow_lt_rpow (div_pos hS this).le (div_lt_div_of_pos_right h this) (hν i)

/-- The pressure at which the pure component has a given concentration. -/
theorem iastG_inv (hν : ∀ i, 0 < ν i) (hK : ∀ i, 0 < K i) (i : Fin m) {c : ℝ} (hc : 0 ≤ c) :
    iastG ν K (ν i * K i * c ^ (1 / ν i)) i = c := by
  have := mul_pos (hν i) (hK i)
  unfold iastG
  rw [mul_div_cancel_left₀ _ this.ne', ← Real.rpow_mul hc, one_div_mul_cancel (hν i).ne', Real.rpow_one]

/-- One pressure makes the fractions add up to one. -/
theorem iast_pressure [NeZero m] (hν : ∀ i, 0 < ν i) (hK : ∀ i, 0 < K i) {c : Fin m → ℝ} (hc : ∀ i, 0 < c i) :
    ∃ S, 0 < S ∧ ∑ i, c i / iastG ν K S i = 1 := by
  have hm : 0 < (m : ℝ) := by exact_mod_cast Nat.pos_of_ne_zero (NeZero.ne m)
  have hm1 : (1 : ℝ) ≤ m := by exact_mod_cast Nat.pos_of_ne_zero (NeZero.ne m)
  set lo : Fin m → ℝ := fun i => ν i * K i * c i ^ (1 / ν i) with hlo
  set hi : Fin m → ℝ := fun i => ν i * K i * (m * c i) ^ (1 / ν i) with hhi
  have hlop : ∀ i, 0 < lo i := fun i => mul_pos (mul_pos (hν i) (hK i)) (Real.rpow_pos_of_pos (hc i) _)
  have hhip : ∀ i, 0 < hi i := fun i => mul_pos (mul_pos (hν i) (hK i)) (Real.rpow_pos_of_pos (mul_pos hm (hc i)) _)
  have hle : ∀ i, lo i ≤ hi i := fun i => by
    refine mul_le_mul_of_nonneg_left (Real.rpow_le_rpow (hc i).le ?_ (one_div_pos.2 (hν i)).le)
      (mul_pos (hν i) (hK i)).le
    nlinarith [hc i]
  set A := lo 0 with hA
  set B := ∑ i, hi i with hB
  have hiB : ∀ i, hi i ≤ B := fun i => Finset.single_le_sum (fun k _ => (hhip k).le) (Finset.mem_univ i)
  have hAB : A ≤ B := (hle 0).trans (hiB 0)
  have hcont : ContinuousOn (fun S => ∑ i, c i / iastG ν K S i) (Icc A B) := by
    refine continuousOn_finsetSum _ fun i _ => ContinuousOn.div continuousOn_const ?_ ?_
    · intro S hS
      refine ContinuousAt.continuousWithinAt ?_
      unfold iastG
      exact (continuousAt_id.div_const _).rpow_const (Or.inr (hν i).le)
    · intro S hS
      exact (iastG_pos hν hK (lt_of_lt_of_le (hlop 0) hS.1) i).ne'
  have h1 : 1 ≤ ∑ i, c i / iastG ν K A i := by
    have : c 0 / iastG ν K A 0 = 1 := by
      rw [hA, hlo]; simp only []
      rw [iastG_inv hν hK 0 (hc 0).le, div_self (hc 0).ne']
    rw [← this]
    exact Finset.single_le_sum (f := fun i => c i / iastG ν K A i)
      (fun k _ => (div_pos (hc k) (iastG_pos hν hK (hlop 0) k)).le) (Finset.mem_univ 0)
  have h2 : ∑ i, c i / iastG ν K B i ≤ 1 := by
    have hb : ∀ i, c i / iastG ν K B i ≤ 1 / m := by
      intro i
      have e : iastG ν K (hi i) i = m * c i := iastG_inv hν hK i (mul_pos hm (hc i)).le
      have : m * c i ≤ iastG ν K B i := by
        rw [← e]
        rcases (hiB i).eq_or_lt with h | h
        · rw [h]
        · exact (iastG_lt hν hK (hhip i) h i).le
      rw [div_le_div_iff₀ (lt_of_lt_of_le (mul_pos hm (hc i)) this) hm]
      linarith
    calc ∑ i, c i / iastG ν K B i ≤ ∑ _i : Fin m, 1 / (m : ℝ) := Finset.sum_le_sum fun i _ => hb i
      _ = 1 := by
        rw [Finset.sum_const, Finset.card_univ, Fintype.card_fin, nsmul_eq_mul, mul_one_div_cancel hm.ne']
  obtain ⟨S, hS, e⟩ := intermediate_value_Icc' hAB hcont ⟨h2, h1⟩
  exact ⟨S, lt_of_lt_of_le (hlop 0) hS.1, e⟩

/-- No other pressure does. -/
theorem iast_pressure_unique [NeZero m] (hν : ∀ i, 0 < ν i) (hK : ∀ i, 0 < K i) {c : Fin m → ℝ} (hc : ∀ i, 0 < c i)
    {S T : ℝ} (hS : 0 < S) (hT : 0 < T) (h1 : ∑ i, c i / iastG ν K S i = 1) (h2 : ∑ i, c i / iastG ν K T i = 1) :
    S = T := by
  have key : ∀ {S T : ℝ}, 0 < S → S < T → ∑ i, c i / iastG ν K T i < ∑ i, c i / iastG ν K S i := by
    intro S T hS h
    exact Finset.sum_lt_sum_of_nonempty Finset.univ_nonempty fun i _ =>
      div_lt_div_of_pos_left (hc i) (iastG_pos hν hK hS i) (iastG_lt hν hK hS h i)
  rcases lt_trichotomy S T with h | h | h
  · have := key hS h; linarith
  · exact h
  · have := key hT h; linarith

/-- What a solution looks like. -/
theorem iast_solution (hν : ∀ i, 0 < ν i) (hK : ∀ i, 0 < K i) {c x : Fin m → ℝ} (hS : 0 < ∑ j, ν j * x j)
    (hc : ∀ i, 0 < c i) (h : ∀ i, iastC ν K x i = c i) :
    0 < ∑ j, x j ∧ (∀ i, 0 < x i) ∧ (∀ i, x i / ∑ j, x j = c i / iastG ν K (∑ j, ν j * x j) i) := by
  have hg := iastG_pos hν hK hS
  have hz : ∀ i, x i / ∑ j, x j = c i / iastG ν K (∑ j, ν j * x j) i := by
    intro i
    rw [eq_div_iff (hg i).ne']
    exact h i
  have hzp : ∀ i, 0 < x i / ∑ j, x j := fun i => by rw [hz]; exact div_pos (hc i) (hg i)
  have hq : 0 < ∑ j, x j := by
    by_contra hn
    have hn' : ∑ j, x j ≤ 0 := not_lt.1 hn
    have : ∀ i, x i ≤ 0 := by
      intro i
      by_contra hi
      have := div_nonpos_of_nonneg_of_nonpos (not_le.1 hi).le hn'
      linarith [hzp i]
    have : ∑ j, ν j * x j ≤ 0 := Finset.sum_nonpos fun j _ => mul_nonpos_of_nonneg_of_nonpos (hν j).le (this j)
    linarith
  refine ⟨hq, fun i => ?_, hz⟩
  have := mul_pos (hzp i) hq
  rwa [div_mul_cancel₀ _ hq.ne'] at this

/-- Every set of positive concentrations belongs to exactly one set of loadings. -/
theorem iast_inverse [NeZero m] (hν : ∀ i, 0 < ν i) (hK : ∀ i, 0 < K i) {c : Fin m → ℝ} (hc : ∀ i, 0 < c i) :
    ∃ x : Fin m → ℝ, (∀ i, 0 < x i) ∧ (∀ i, iastC ν K x i = c i) ∧
      ∀ y : Fin m → ℝ, 0 < ∑ j, ν j * y j → (∀ i, iastC ν K y i = c i) → y = x := by
  obtain ⟨S, hS, e⟩ := iast_pressure hν hK hc
  have hg := iastG_pos hν hK hS
  have hzp : ∀ i, 0 < c i / iastG ν K S i := fun i => div_pos (hc i) (hg i)
  set M := ∑ i, ν i * (c i / iastG ν K S i) with hM
  have hMp : 0 < M := Finset.sum_pos (fun i _ => mul_pos (hν i) (hzp i)) Finset.univ_nonempty
  have e1 : ∑ i, c i / iastG ν K S i * (S / M) = S / M := by rw [← Finset.sum_mul, e, one_mul]
  have e2 : ∑ i, ν i * (c i / iastG ν K S i * (S / M)) = S := by
    have : ∑ i, ν i * (c i / iastG ν K S i * (S / M)) = M * (S / M) := by
      rw [hM, Finset.sum_mul]
      exact Finset.sum_congr rfl fun i _ => by ring
    rw [this, mul_div_cancel₀ _ hMp.ne']
  refine ⟨fun i => c i / iastG ν K S i * (S / M), fun i => mul_pos (hzp i) (div_pos hS hMp), fun i => ?_, ?_⟩
  · unfold iastC
    rw [e1, e2, mul_div_cancel_right₀ _ (div_pos hS hMp).ne']
    exact div_mul_cancel₀ _ (hg i).ne'
  · intro y hy h
    obtain ⟨hq, -, hz⟩ := iast_solution hν hK hy hc h
    have hsum : ∑ i, c i / iastG ν K (∑ j, ν j * y j) i = 1 := by
      rw [← Finset.sum_congr rfl fun i _ => hz i, ← Finset.sum_div, div_self hq.ne']
    have hST := iast_pressure_unique hν hK hc hS hy e hsum
    rw [← hST] at hz
    have hMq : M * ∑ j, y j = S := by
      rw [hM, Finset.sum_mul]
      refine Eq.trans (Finset.sum_congr rfl fun i _ => ?_) hST.symm
      rw [← hz, mul_assoc, div_mul_cancel₀ _ hq.ne']
    funext i
    rw [← hz, ← hMq, mul_div_cancel_left₀ _ hMp.ne', div_mul_cancel₀ _ hq.ne']

/-- A tangent: `n z^(1 - 1/n)` is at most `n z + (1 - z)`. -/
theorem pow_tangent {n z : ℝ} (hn : 1 ≤ n) (hz : 0 < z) : n * z ^ (1 - 1 / n) ≤ n * z + (1 - z) := by
  have h0 : 0 < n := by linarith
  have h1 : 0 ≤ 1 - 1 / n := by
    have : 1 / n ≤ 1 := by rw [div_le_one h0]; exact hn
    linarith
  have h2 : 1 - 1 / n ≤ 1 := by
    have := one_div_pos.2 h0
    linarith
  have := rpow_one_add_le_one_add_mul_self (s := z - 1) (by linarith) h1 h2
  rw [add_sub_cancel] at this
  have h3 := mul_le_mul_of_nonneg_left this h0.le
  have e : n * (1 + (1 - 1 / n) * (z - 1)) = n * z + (1 - z) := by
    field_simp
    ring
  linarith

/-- With no exponent above one a component is never loaded more than it would be alone. -/
theorem iast_competition (hν : ∀ i, 1 ≤ ν i) (hK : ∀ i, 0 < K i) {c x : Fin m → ℝ} (hx : ∀ i, 0 < x i)
    (hc : ∀ i, 0 < c i) (h : ∀ i, iastC ν K x i = c i) (i : Fin m) : x i ≤ K i * c i ^ (1 / ν i) := by
  have hν0 : ∀ i, 0 < ν i := fun i => by linarith [hν i]
  have hS : 0 < ∑ j, ν j * x j := Finset.sum_pos (fun j _ => mul_pos (hν0 j) (hx j)) ⟨i, Finset.mem_univ i⟩
  obtain ⟨hq, -, hz⟩ := iast_solution hν0 hK hS hc h
  set S := ∑ j, ν j * x j with hSd
  set q := ∑ j, x j with hqd
  have hg := iastG_pos hν0 hK hS i
  set z := x i / q with hzd
  have hzp : 0 < z := div_pos (hx i) hq
  have hci : c i = z * iastG ν K S i := by
    rw [show z = c i / iastG ν K S i from hz i, div_mul_cancel₀ _ hg.ne']
  have hb : 0 < S / (ν i * K i) := div_pos hS (mul_pos (hν0 i) (hK i))
  have e1 : K i * c i ^ (1 / ν i) = z ^ (1 / ν i) * (S / ν i) := by
    rw [hci, Real.mul_rpow hzp.le hg.le]
    unfold iastG
    rw [← Real.rpow_mul hb.le, mul_one_div_cancel (hν0 i).ne', Real.rpow_one]
    have := (hK i).ne'
    have := (hν0 i).ne'
    field_simp
  have hSq : ν i * z + (1 - z) ≤ S / q := by
    rw [le_div_iff₀ hq]
    have e : (ν i * z + (1 - z)) * q = ν i * x i + (q - x i) := by
      have : z * q = x i := div_mul_cancel₀ _ hq.ne'
      linear_combination (ν i - 1) * this
    rw [e, hSd, hqd, ← Finset.add_sum_erase _ (fun j => ν j * x j) (Finset.mem_univ i),
      ← Finset.add_sum_erase _ (fun j => x j) (Finset.mem_univ i), add_sub_cancel_left]
    exact add_le_add le_rfl (Finset.sum_le_sum fun j _ => by nlinarith [hν j, hx j])
  have ht := pow_tangent (hν i) hzp
  have hsplit : z ^ (1 - 1 / ν i) * z ^ (1 / ν i) = z := by
    rw [← Real.rpow_add hzp, sub_add_cancel, Real.rpow_one]
  have hzi : 0 < z ^ (1 / ν i) := Real.rpow_pos_of_pos hzp _
  rw [e1]
  have h1 : ν i * z ≤ S / q * z ^ (1 / ν i) := by
    calc ν i * z = ν i * z ^ (1 - 1 / ν i) * z ^ (1 / ν i) := by rw [mul_assoc, hsplit]
      _ ≤ S / q * z ^ (1 / ν i) := mul_le_mul_of_nonneg_right (ht.trans hSq) hzi.le
  have hxi : x i = z * q := (div_mul_cancel₀ _ hq.ne').symm
  rw [hxi]
  have hνi := hν0 i
  rw [mul_div_assoc', le_div_iff₀ hνi]
  calc z * q * ν i = ν i * z * q := by ring
    _ ≤ S / q * z ^ (1 / ν i) * q := mul_le_mul_of_nonneg_right h1 hq.le
    _ = z ^ (1 / ν i) * S := by rw [mul_right_comm, div_mul_cancel₀ _ hq.ne', mul_comm]

/-- With a common exponent the pressure drops out. -/
theorem iastC_common {n : ℝ} (hn : 0 < n) {K x : Fin m → ℝ} (hK : ∀ i, 0 < K i) (hq : 0 < ∑ j, x j) (i : Fin m) :
    iastC (fun _ => n) K x i = K i ^ (-n) * x i * (∑ j, x j) ^ (n - 1) := by
  unfold iastC
  simp only []
  rw [← Finset.mul_sum, mul_div_mul_left _ _ hn.ne', Real.div_rpow hq.le (hK i).le, Real.rpow_neg (hK i).le,
    Real.rpow_sub_one hq.ne']
  have := (Real.rpow_pos_of_pos (hK i) n).ne'
  field_simp

/-- Behind a front: `lam` is the ratio of concentration to loading of the component that has stopped, `T` the total
loading before it. The components that remain are less adsorbable. -/
structure FrontData (m : ℕ) (n : ℝ) where
  k : Fin m → ℝ
  q : Fin m → ℝ
  lam : ℝ
  T : ℝ
  hk : ∀ i, 0 < k i
  hq : ∀ i, 0 < q i
  hlam : 0 < lam
  hT : ∑ i, q i < T
  hord : ∀ i, lam < k i * T ^ (n - 1)

namespace FrontData
variable {n : ℝ} (F : FrontData m n)

/-- Loadings that satisfy the flux condition across the front. -/
def Sol (x : Fin m → ℝ) : Prop :=
  ∀ i, F.lam * (x i - F.q i) + F.k i * F.q i * F.T ^ (n - 1) = F.k i * x i * (∑ j, x j) ^ (n - 1)

noncomputable def e (i : Fin m) : ℝ := F.q i * (F.k i * F.T ^ (n - 1) - F.lam)

theorem e_pos (i : Fin m) : 0 < F.e i := mul_pos (F.hq i) (sub_pos.2 (F.hord i))

theorem T_pos [NeZero m] : 0 < F.T := lt_trans (Finset.sum_pos (fun i _ => F.hq i) Finset.univ_nonempty) F.hT

theorem sol_iff {x : Fin m → ℝ} : F.Sol x ↔ ∀ i, x i * (F.k i * (∑ j, x j) ^ (n - 1) - F.lam) = F.e i := by
  unfold Sol e
  refine forall_congr' fun i => ⟨fun h => ?_, fun h => ?_⟩ <;> linear_combination -h

/-- Beyond the pole. -/
theorem sol_pole {x : Fin m → ℝ} (hx : ∀ i, 0 < x i) (h : F.Sol x) (i : Fin m) :
    F.lam < F.k i * (∑ j, x j) ^ (n - 1) := by
  have := (F.sol_iff.1 h) i
  have h2 := F.e_pos i
  rw [← this] at h2
  have := (mul_pos_iff_of_pos_left (hx i)).1 h2
  linarith

theorem sol_eq {x : Fin m → ℝ} (hx : ∀ i, 0 < x i) (h : F.Sol x) (i : Fin m) :
    x i = F.e i / (F.k i * (∑ j, x j) ^ (n - 1) - F.lam) := by
  rw [eq_div_iff (sub_pos.2 (F.sol_pole hx h i)).ne']
  exact F.sol_iff.1 h i

theorem h_anti (hn : 1 ≤ n) {S T : ℝ} (hS : 0 < S) (hST : S ≤ T) (hp : ∀ i, F.lam < F.k i * S ^ (n - 1)) (i : Fin m) :
    F.e i / (F.k i * T ^ (n - 1) - F.lam) ≤ F.e i / (F.k i * S ^ (n - 1) - F.lam) := by
  have h1 : F.k i * S ^ (n - 1) ≤ F.k i * T ^ (n - 1) :=
    mul_le_mul_of_nonneg_left (Real.rpow_le_rpow hS.le hST (by linarith)) (F.hk i).le
  have := hp i
  exact div_le_div_of_nonneg_left (F.e_pos i).le (by linarith) (by linarith)

theorem e_div (i : Fin m) : F.e i / (F.k i * F.T ^ (n - 1) - F.lam) = F.q i :=
  mul_div_cancel_right₀ _ (sub_pos.2 (F.hord i)).ne'

/-- Two solutions are equal. -/
theorem unique [NeZero m] (hn : 1 ≤ n) {x y : Fin m → ℝ} (hx : ∀ i, 0 < x i) (hy : ∀ i, 0 < y i) (h1 : F.Sol x)
    (h2 : F.Sol y) : x = y := by
  have key : ∀ {x y : Fin m → ℝ}, (∀ i, 0 < x i) → (∀ i, 0 < y i) → F.Sol x → F.Sol y →
      ∑ i, y i ≤ ∑ i, x i := by
    intro x y hx hy h1 h2
    by_contra hlt
    have hlt := not_le.1 hlt
    have hp : 0 < ∑ i, x i := Finset.sum_pos (fun i _ => hx i) Finset.univ_nonempty
    have : ∑ i, y i ≤ ∑ i, x i := Finset.sum_le_sum fun i _ => by
      rw [F.sol_eq hx h1 i, F.sol_eq hy h2 i]
      exact F.h_anti hn hp hlt.le (F.sol_pole hx h1) i
    linarith
  have e : ∑ i, x i = ∑ i, y i := le_antisymm (key hy hx h2 h1) (key hx hy h1 h2)
  funext i
  rw [F.sol_eq hx h1 i, F.sol_eq hy h2 i, e]

/-- The total loading falls across the front. -/
theorem total [NeZero m] (hn : 1 ≤ n) {x : Fin m → ℝ} (hx : ∀ i, 0 < x i) (h : F.Sol x) : ∑ i, x i < F.T := by
  by_contra hlt
  have hlt := not_lt.1 hlt
  have : ∑ i, x i ≤ ∑ i, F.q i := Finset.sum_le_sum fun i _ => by
    rw [F.sol_eq hx h i]
    refine (F.h_anti hn F.T_pos hlt F.hord i).trans ?_
    rw [F.e_div]
  linarith [F.hT]

/-- Each loading rises. -/
theorem rise [NeZero m] (hn : 1 ≤ n) {x : Fin m → ℝ} (hx : ∀ i, 0 < x i) (h : F.Sol x) (i : Fin m) :
    F.q i ≤ x i := by
  have hp : 0 < ∑ i, x i := Finset.sum_pos (fun i _ => hx i) Finset.univ_nonempty
  rw [F.sol_eq hx h i]
  refine le_trans (F.e_div i).ge ?_
  exact F.h_anti hn hp (F.total hn hx h).le (F.sol_pole hx h) i

theorem rise_strict [NeZero m] (hn : 1 < n) {x : Fin m → ℝ} (hx : ∀ i, 0 < x i) (h : F.Sol x) (i : Fin m) :
    F.q i < x i := by
  have hp : 0 < ∑ i, x i := Finset.sum_pos (fun i _ => hx i) Finset.univ_nonempty
  rw [F.sol_eq hx h i]
  refine lt_of_eq_of_lt (F.e_div i).symm ?_
  have h1 : F.k i * (∑ j, x j) ^ (n - 1) < F.k i * F.T ^ (n - 1) :=
    mul_lt_mul_of_pos_left (Real.rpow_lt_rpow hp.le (F.total hn.le hx h) (by linarith)) (F.hk i)
  have := F.sol_pole hx h i
  exact div_lt_div_of_pos_left (F.e_pos i) (by linarith) (by linarith)

/-- There is a solution. -/
theorem exists_sol [NeZero m] (hn : 1 ≤ n) : ∃ x, (∀ i, 0 < x i) ∧ F.Sol x := by
  have mk : ∀ S, 0 < S → (∀ i, F.lam < F.k i * S ^ (n - 1)) →
      ∑ i, F.e i / (F.k i * S ^ (n - 1) - F.lam) = S → ∃ x, (∀ i, 0 < x i) ∧ F.Sol x := by
    intro S hS hp h
    refine ⟨fun i => F.e i / (F.k i * S ^ (n - 1) - F.lam), fun i => div_pos (F.e_pos i) (sub_pos.2 (hp i)), ?_⟩
    rw [sol_iff]
    intro i
    rw [h, div_mul_cancel₀ _ (sub_pos.2 (hp i)).ne']
  have hT := F.T_pos
  rcases hn.eq_or_lt with h1 | h1
  · have hz : ∀ S : ℝ, S ^ (n - 1) = 1 := fun S => by rw [show n - 1 = 0 by linarith, Real.rpow_zero]
    refine mk (∑ i, F.q i) (Finset.sum_pos (fun i _ => F.hq i) Finset.univ_nonempty) (fun i => ?_) ?_
    · have := F.hord i
      rw [hz] at this ⊢
      exact this
    · refine Finset.sum_congr rfl fun i _ => ?_
      have := F.e_div i
      rw [hz] at this ⊢
      exact this
  · obtain ⟨a, -, ha⟩ := Finset.exists_min_image Finset.univ F.k ⟨0, Finset.mem_univ 0⟩
    have hn1 : 0 < n - 1 := by linarith
    have hk := F.hk a
    have hea := F.e_pos a
    set δ := min (F.e a / F.T) (F.k a * F.T ^ (n - 1) - F.lam) with hδ
    have hδp : 0 < δ := lt_min (div_pos hea hT) (sub_pos.2 (F.hord a))
    have hl := F.hlam
    have hb : 0 < (F.lam + δ) / F.k a := by positivity
    set A := ((F.lam + δ) / F.k a) ^ (1 / (n - 1)) with hA
    have hAp : 0 < A := Real.rpow_pos_of_pos hb _
    have hAk : F.k a * A ^ (n - 1) = F.lam + δ := by
      rw [hA, ← Real.rpow_mul hb.le, one_div_mul_cancel hn1.ne', Real.rpow_one, mul_div_cancel₀ _ hk.ne']
    have hAT : A ≤ F.T := by
      by_contra hlt
      have := mul_lt_mul_of_pos_left (Real.rpow_lt_rpow hT.le (not_le.1 hlt) hn1) hk
      have h2 : δ ≤ F.k a * F.T ^ (n - 1) - F.lam := min_le_right _ _
      linarith
    have hpole : ∀ S, A ≤ S → ∀ i, F.lam < F.k i * S ^ (n - 1) := by
      intro S hS i
      have h1 : F.k a * A ^ (n - 1) ≤ F.k i * S ^ (n - 1) :=
        mul_le_mul (ha i (Finset.mem_univ i)) (Real.rpow_le_rpow hAp.le hS hn1.le) (Real.rpow_nonneg hAp.le _)
          (F.hk i).le
      linarith
    set h : ℝ → ℝ := fun S => ∑ i, F.e i / (F.k i * S ^ (n - 1) - F.lam) with hh
    have hcont : ContinuousOn (fun S => h S - S) (Icc A F.T) := by
      refine ContinuousOn.sub (continuousOn_finsetSum _ fun i _ => ContinuousOn.div continuousOn_const ?_ ?_)
        continuousOn_id
      · intro S _
        refine ContinuousAt.continuousWithinAt ?_
        exact (continuousAt_const.mul (continuousAt_id.rpow_const (Or.inr hn1.le))).sub continuousAt_const
      · intro S hS
        exact (sub_pos.2 (hpole S hS.1 i)).ne'
    have hlo : 0 ≤ h A - A := by
      have h1 : F.e a / (F.k a * A ^ (n - 1) - F.lam) ≤ h A :=
        Finset.single_le_sum (f := fun i => F.e i / (F.k i * A ^ (n - 1) - F.lam))
          (fun i _ => (div_pos (F.e_pos i) (sub_pos.2 (hpole A le_rfl i))).le) (Finset.mem_univ a)
      rw [hAk, add_sub_cancel_left] at h1
      have h2 : F.T ≤ F.e a / δ := by
        rw [le_div_iff₀ hδp]
        have : δ ≤ F.e a / F.T := min_le_left _ _
        rw [le_div_iff₀ hT] at this
        linarith
      linarith
    have hhi : h F.T - F.T ≤ 0 := by
      have : h F.T = ∑ i, F.q i := Finset.sum_congr rfl fun i _ => F.e_div i
      linarith [F.hT]
    obtain ⟨S, hS, e⟩ := intermediate_value_Icc' hAT hcont ⟨hhi, hlo⟩
    exact mk S (lt_of_lt_of_le hAp hS.1) (hpole S hS.1) (sub_eq_zero.1 e)

end FrontData
end
end WTM
