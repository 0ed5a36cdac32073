import Mathlib.Tactic.FieldSimp
import Mathlib.Tactic.Linarith
import Mathlib.Tactic.Positivity
import Mathlib.Algebra.BigOperators.Field
import Mathlib.Algebra.Order.BigOperators.Group.Finset
import Verif.Model.GacColumn
import Verif.Props.Fouling

/-! Properties C46–C49, C56, C57, C87: the carbon column. -/
set_option autoImplicit false
namespace WTM
open BigOperators

variable {n r z : ℕ}

/-! ### Specification -/
namespace Spec

/-- Freundlich isotherm. -/
def Freundlich (K xn q c : ℝ) : Prop := q = K * c ^ xn

/-- Ideal adsorbed solution theory for Freundlich components: at a common spreading pressure `π` each
pure component would have loading `q0` and liquid concentration `c0`; the mixture's liquid concentration is
`c0` times the adsorbed mole fraction, and the adsorbed phase mixes ideally. -/
def Iast (K xn q c : Fin n → ℝ) : Prop :=
  ∃ (π : ℝ) (q0 c0 : Fin n → ℝ), 0 < π ∧
    (∀ i, 0 < q0 i ∧ 0 < c0 i ∧ Freundlich (K i) (xn i) (q0 i) (c0 i)) ∧
    (∀ i, q0 i / xn i = π) ∧
    (∀ i, c i = q i / (∑ j, q j) * c0 i) ∧
    1 / (∑ j, q j) = ∑ j, q j / (∑ j', q j') / q0 j

end Spec

/-! ### C46 -/

/-- C46. The rescaled K gives the same capacity at the reference concentration. -/
theorem c46_capacity {K C xn xn' q : ℝ} (hK : 0 < K) (hC : 0 < C) (hx : xn ≠ 0)
    (hq : Spec.Freundlich K xn q C) : Spec.Freundlich (recalcK K q xn xn') xn' q C := by
  unfold Spec.Freundlich at *
  have hCx : 0 < C ^ xn := Real.rpow_pos_of_pos hC _
  have hqp : 0 < q := by rw [hq]; exact mul_pos hK hCx
  have e : (C : ℝ) ^ xn' = (q / K) ^ (xn' / xn) := by
    have : q / K = C ^ xn := by rw [hq]; field_simp
    rw [this, ← Real.rpow_mul hC.le]
    congr 1
    field_simp
  rw [recalcK, e, Real.div_rpow hqp.le hK.le, Real.rpow_sub hqp, Real.rpow_one]
  have h1 : K ^ (xn' / xn) ≠ 0 := (Real.rpow_pos_of_pos hK _).ne'
  have h2 : q ^ (xn' / xn) ≠ 0 := (Real.rpow_pos_of_pos hqp _).ne'
  field_simp

/-- C46. Rescaling to the same exponent changes nothing. -/
theorem c46_same {K q xn : ℝ} (hx : xn ≠ 0) : recalcK K q xn xn = K := by
  unfold recalcK
  rw [div_self hx, sub_self, Real.rpow_zero, Real.rpow_one, one_mul]

/-- C46. Rescaling twice at the same capacity equals rescaling once. -/
theorem c46_twice {K q x y w : ℝ} (hK : 0 < K) (hq : 0 < q) (hx : x ≠ 0) (hy : y ≠ 0) :
    recalcK (recalcK K q x y) q y w = recalcK K q x w := by
  unfold recalcK
  have h1 : 0 < q ^ (1 - y / x) := Real.rpow_pos_of_pos hq _
  have h2 : 0 < K ^ (y / x) := Real.rpow_pos_of_pos hK _
  rw [Real.mul_rpow h1.le h2.le, ← Real.rpow_mul hq.le, ← Real.rpow_mul hK.le, ← mul_assoc,
    ← Real.rpow_add hq]
  congr 2
  · field_simp; ring
  · field_simp

/-- C46. A rescaled K is positive. -/
theorem c46_pos {K q x y : ℝ} (hK : 0 < K) (hq : 0 < q) : 0 < recalcK K q x y :=
  mul_pos (Real.rpow_pos_of_pos hq _) (Real.rpow_pos_of_pos hK _)

example : Spec.Freundlich 2 (1 / 2) (2 * (4 : ℝ) ^ (1 / 2 : ℝ)) 4 ∧ (0 : ℝ) < 2 ∧ (1 / 2 : ℝ) ≠ 0 :=
  ⟨rfl, by norm_num, by norm_num⟩

/-! ### C47 -/

/-- C47. The molar K describes the same isotherm: `q = K C^xn` in mass units if and only if
`q/MW = K' (C/MW)^xn`. -/
theorem c47_molar {K mw xn q C : ℝ} (hmw : 0 < mw) (hC : 0 ≤ C) :
    Spec.Freundlich K xn q C ↔ Spec.Freundlich (molarK K mw xn) xn (q / mw) (C / mw) := by
  unfold Spec.Freundlich molarK
  have h1 : (1 / mw) ^ xn ≠ 0 := (Real.rpow_pos_of_pos (by positivity) _).ne'
  have e : (C / mw) ^ xn = C ^ xn * (1 / mw) ^ xn := by
    rw [← Real.mul_rpow hC (by positivity)]; congr 1; ring
  rw [e]
  have : K / mw / (1 / mw) ^ xn * (C ^ xn * (1 / mw) ^ xn) = K * C ^ xn / mw := by
    field_simp
  rw [this, div_left_inj' hmw.ne']

/-! ### Positivity of the groups -/

/-- A compound with positive isotherm, molecular weight and influent. -/
def GacComp.Ok (c : GacComp) : Prop := 0 < c.K ∧ 0 < c.xn ∧ 0 < c.mw ∧ 0 ≤ c.c0

theorem cb0_pos {c : GacComp} (h : c.Ok) : 0 < cb0Of c.c0 := by
  unfold cb0Of
  split
  · exact one_pos
  · exact lt_of_le_of_ne h.2.2.2 (Ne.symm ‹_›)

theorem molarK_pos {K mw xn : ℝ} (hK : 0 < K) (hmw : 0 < mw) : 0 < molarK K mw xn :=
  div_pos (div_pos hK hmw) (Real.rpow_pos_of_pos (by positivity) _)

theorem qe_pos {c : GacComp} (h : c.Ok) : 0 < qeOf c :=
  mul_pos (molarK_pos h.1 h.2.2.1) (Real.rpow_pos_of_pos (cb0_pos h) _)

theorem ym_pos {cs : Fin n → GacComp} (h : ∀ i, (cs i).Ok) (i : Fin n) : 0 < ymOf cs i := by
  have : Nonempty (Fin n) := ⟨i⟩
  exact div_pos (qe_pos (h i)) (Finset.sum_pos (fun j _ => qe_pos (h j)) Finset.univ_nonempty)

/-! ### C48 -/

/-- C48. Pore concentrations are never negative. -/
theorem c48_nonneg {ym xn foul y : Fin n → ℝ} (hym : ∀ i, 0 ≤ ym i) (hxn : ∀ i, 0 ≤ xn i)
    (hf : ∀ i, 0 ≤ foul i) (i : Fin n) : 0 ≤ cpore ym xn foul y i := by
  unfold cpore
  simp only
  have hz : ∀ j, 0 ≤ (if ym j * y j < 0 then 0 else ym j * y j) := by
    intro j; split <;> linarith
  have key : ∀ (A : Prop) [Decidable A] (x : ℝ), (¬ A → 0 ≤ x) → 0 ≤ if A then 0 else x := by
    intro A _ x hx
    by_cases hA : A
    · rw [if_pos hA]
    · rw [if_neg hA]; exact hx hA
  apply key
  intro h
  rw [not_or, not_or] at h
  rw [if_neg h.1]
  exact mul_nonneg (hf i) (mul_nonneg (div_nonneg (hz i) (not_le.1 h.1).le)
    (Real.rpow_nonneg (mul_nonneg (div_nonneg (hxn i) (hym i)) (not_le.1 h.2.1).le) _))

/-- C48. With no positive loading anywhere the pore concentrations are zero. -/
theorem c48_empty {ym xn foul y : Fin n → ℝ} (hym : ∀ i, 0 ≤ ym i) (hy : ∀ i, y i ≤ 0) (i : Fin n) :
    cpore ym xn foul y i = 0 := by
  unfold cpore
  simp only
  have hz : ∀ j, (if ym j * y j < 0 then 0 else ym j * y j) = 0 := by
    intro j
    split
    · rfl
    · have := mul_nonpos_of_nonneg_of_nonpos (hym j) (hy j); linarith
  simp only [hz]
  rw [if_pos]
  right; left; simp

/-- With nonnegative loadings, not all zero, the guards are inactive. -/
theorem cpore_eq {ym xn foul y : Fin n → ℝ} (hym : ∀ i, 0 < ym i) (hxn : ∀ i, 0 < xn i)
    (hy : ∀ i, 0 ≤ y i) {j : Fin n} (hj : 0 < y j) (i : Fin n) :
    cpore ym xn foul y i = foul i * (ym i * y i / (∑ k, ym k * y k) *
      (xn i / ym i * ∑ k, 1 / xn k * (ym k * y k)) ^ (1 / xn i)) := by
  have hz : ∀ k, 0 ≤ ym k * y k := fun k => mul_nonneg (hym k).le (hy k)
  have hs : 0 < ∑ k, ym k * y k :=
    Finset.sum_pos' (fun k _ => hz k) ⟨j, Finset.mem_univ j, mul_pos (hym j) hj⟩
  have ht : 0 < ∑ k, 1 / xn k * (ym k * y k) :=
    Finset.sum_pos' (fun k _ => mul_nonneg (one_div_pos.2 (hxn k)).le (hz k))
      ⟨j, Finset.mem_univ j, mul_pos (one_div_pos.2 (hxn j)) (mul_pos (hym j) hj)⟩
  have e : (fun k => if ym k * y k < 0 then 0 else ym k * y k) = fun k => ym k * y k := by
    funext k; rw [if_neg (not_lt.2 (hz k))]
  have e' : ∀ k, (if ym k * y k < 0 then 0 else ym k * y k) = ym k * y k := fun k => congrFun e k
  unfold cpore
  simp only [e']
  rw [if_neg hs.ne', if_neg (not_le.2 hs), if_neg]
  push Not
  refine ⟨hs, ht, ?_⟩
  have : 0 ≤ 1 / xn i * (xn i / ym i * ∑ k, 1 / xn k * (ym k * y k)) :=
    mul_nonneg (one_div_pos.2 (hxn i)).le (mul_nonneg (div_pos (hxn i) (hym i)).le ht.le)
  linarith

/-- C48. With one compound the pore concentration is the Freundlich concentration for the loading; a
capacity multiplier `f` (fouling) multiplies K. `y` is the loading relative to `qe`, the pore concentration
is relative to `cb0`. -/
theorem c48_single {c : GacComp} (hc : c.Ok) {f y : ℝ} (hf : 0 < f) (hy : 0 < y) :
    Spec.Freundlich (f * molarK c.K c.mw c.xn) c.xn (y * qeOf c)
      (cpore (n := 1) (ymOf fun _ => c) (fun _ => c.xn) (fun _ => foulFOf f c.xn) (fun _ => y) 0 *
        cb0Of c.c0) := by
  have hx := hc.2.1
  have hq := qe_pos hc
  have hcb := cb0_pos hc
  have hym : ymOf (fun _ : Fin 1 => c) = fun _ => 1 := by
    funext i; unfold ymOf; rw [Finset.univ_unique, Finset.sum_singleton, div_self hq.ne']
  rw [hym, cpore_eq (fun _ => one_pos) (fun _ => hx) (fun _ => hy.le) (j := 0) hy,
    Finset.univ_unique, Finset.sum_singleton, Finset.sum_singleton]
  unfold Spec.Freundlich foulFOf qeOf
  have e1 : c.xn / 1 * (1 / c.xn * (1 * y)) = y := by field_simp
  have e2 : (1 * y / (1 * y)) = 1 := by field_simp
  rw [e1, e2, one_mul, ← Real.mul_rpow (by positivity) hy.le,
    Real.mul_rpow (Real.rpow_nonneg (by positivity) _) hcb.le, ← Real.rpow_mul (by positivity),
    one_div_mul_cancel hx.ne', Real.rpow_one]
  field_simp

/-- C48/C87. Without fouling the pore concentrations of any number of compounds satisfy ideal adsorbed
solution theory, in molar units. -/
theorem c87_iast {cs : Fin n → GacComp} (hc : ∀ i, (cs i).Ok) {y : Fin n → ℝ} (hy : ∀ i, 0 ≤ y i)
    {j : Fin n} (hj : 0 < y j) :
    Spec.Iast (fun i => molarK (cs i).K (cs i).mw (cs i).xn) (fun i => (cs i).xn)
      (fun i => y i * qeOf (cs i))
      (fun i => cpore (ymOf cs) (fun i => (cs i).xn) (fun _ => 1) y i * cb0Of (cs i).c0) := by
  have hx : ∀ i, 0 < (cs i).xn := fun i => (hc i).2.1
  have hym := fun i => ym_pos hc i
  have hne : Nonempty (Fin n) := ⟨j⟩
  have hQ : 0 < ∑ k, qeOf (cs k) := Finset.sum_pos (fun k _ => qe_pos (hc k)) Finset.univ_nonempty
  set Q := ∑ k, qeOf (cs k) with hQdef
  have hz : ∀ k, ymOf cs k * y k = y k * qeOf (cs k) / Q := by
    intro k; unfold ymOf; rw [← hQdef]; ring
  set S := ∑ k, y k * qeOf (cs k) with hS
  have hSpos : 0 < S := Finset.sum_pos' (fun k _ => mul_nonneg (hy k) (qe_pos (hc k)).le)
      ⟨j, Finset.mem_univ j, mul_pos hj (qe_pos (hc j))⟩
  set P := ∑ k, y k * qeOf (cs k) / (cs k).xn with hP
  have hPpos : 0 < P := Finset.sum_pos'
    (fun k _ => div_nonneg (mul_nonneg (hy k) (qe_pos (hc k)).le) (hx k).le)
    ⟨j, Finset.mem_univ j, div_pos (mul_pos hj (qe_pos (hc j))) (hx j)⟩
  have hsum1 : ∑ k, ymOf cs k * y k = S / Q := by
    simp only [hz]; rw [hS, Finset.sum_div]
  have hsum2 : ∑ k, 1 / (cs k).xn * (ymOf cs k * y k) = P / Q := by
    simp only [hz]; rw [hP, Finset.sum_div]
    exact Finset.sum_congr rfl (fun k _ => by ring)
  have hq0 : ∀ i, 0 < P * (cs i).xn := fun i => mul_pos hPpos (hx i)
  have hKm : ∀ i, 0 < molarK (cs i).K (cs i).mw (cs i).xn := fun i => molarK_pos (hc i).1 (hc i).2.2.1
  refine ⟨P, fun i => P * (cs i).xn,
    fun i => (P * (cs i).xn / molarK (cs i).K (cs i).mw (cs i).xn) ^ (1 / (cs i).xn), hPpos, ?_, ?_, ?_, ?_⟩
  · intro i
    have hb : 0 < P * (cs i).xn / molarK (cs i).K (cs i).mw (cs i).xn := div_pos (hq0 i) (hKm i)
    refine ⟨hq0 i, Real.rpow_pos_of_pos hb _, ?_⟩
    unfold Spec.Freundlich
    rw [← Real.rpow_mul hb.le, one_div_mul_cancel (hx i).ne', Real.rpow_one]
    have := (hKm i).ne'
    field_simp
  · intro i
    have := (hx i).ne'
    field_simp
  · intro i
    simp only
    rw [cpore_eq hym hx hy hj, hsum1, hsum2, one_mul, hz i, ← hS]
    have hcb := cb0_pos (hc i)
    have e1 : y i * qeOf (cs i) / Q / (S / Q) = y i * qeOf (cs i) / S := by
      field_simp
    have e2 : (cs i).xn / ymOf cs i * (P / Q) =
        (P * (cs i).xn / molarK (cs i).K (cs i).mw (cs i).xn) / cb0Of (cs i).c0 ^ (cs i).xn := by
      unfold ymOf
      rw [← hQdef, qeOf]
      have h1 := (hKm i).ne'
      have h2 : cb0Of (cs i).c0 ^ (cs i).xn ≠ 0 := (Real.rpow_pos_of_pos hcb _).ne'
      field_simp
    rw [e1, e2, Real.div_rpow (div_pos (hq0 i) (hKm i)).le (Real.rpow_nonneg hcb.le _),
      ← Real.rpow_mul hcb.le, mul_one_div_cancel (hx i).ne', Real.rpow_one, mul_assoc,
      div_mul_cancel₀ _ hcb.ne']
  · have e : ∀ k, y k * qeOf (cs k) / S / (P * (cs k).xn) = (y k * qeOf (cs k) / (cs k).xn) / (S * P) := by
      intro k
      have := (hx k).ne'
      field_simp
    simp only
    rw [← hS, Finset.sum_congr rfl (fun k _ => e k), ← Finset.sum_div, ← hP]
    field_simp

/-- Two compounds meeting the hypotheses. -/
example : (∀ i, ((![⟨100, 1 / 2, 131, 90, 3, 0, 0, 0⟩, ⟨20, 3 / 4, 414, 200, 0, 0, 0, 0⟩] :
    Fin 2 → GacComp) i).Ok) := by
  intro i; fin_cases i <;> (unfold GacComp.Ok; norm_num)

/-! ### C49 -/

/-- Liquid concentration seen by the beads at an axial point: the influent at the inlet. -/
def Spec.bulk (cinfl : Fin n → ℝ) (y : GacState n r z) (i : Fin n) (w : Fin (z + 1)) : ℝ :=
  if w = 0 then cinfl i else y i (Fin.last (r + 1)) w

theorem gacRhs_bead (D : GacDim n r z) (cinfl foul fac : Fin n → ℝ) (y : GacState n r z) (i : Fin n)
    (k : Fin (r + 1)) (w : Fin (z + 1)) :
    gacRhs D cinfl foul fac y i k.castSucc w = gacBead D cinfl foul fac y i k w := by
  simp [gacRhs]

theorem gacRhs_liq (D : GacDim n r z) (cinfl foul fac : Fin n → ℝ) (y : GacState n r z) (i : Fin n)
    (w : Fin (z + 1)) :
    gacRhs D cinfl foul fac y i (Fin.last (r + 1)) w = gacLiq D cinfl foul y i w := by
  simp [gacRhs]

/-- C49. For every compound and axial point the weighted rate of bead loading is the film flux into the
bead. -/
theorem c49_bead (D : GacDim n r z) (hw : D.wr (Fin.last r) ≠ 0) (cinfl foul fac : Fin n → ℝ)
    (y : GacState n r z) (i : Fin n) (w : Fin (z + 1)) :
    ∑ k, D.wr k * gacRhs D cinfl foul fac y i k.castSucc w =
      D.dgI i * D.stdv i * (Spec.bulk cinfl y i w - cporeAt D foul y i (Fin.last r) w) := by
  simp only [gacRhs_bead]
  rw [Fin.sum_univ_castSucc]
  have h1 : ∀ k : Fin r, gacBead D cinfl foul fac y i k.castSucc w = gacBB D foul fac y i k.castSucc w := by
    intro k
    unfold gacBead
    rw [if_neg (Fin.castSucc_lt_last k).ne]
  simp only [h1]
  have e : ∑ k : Fin r, D.wr k.castSucc * gacBB D foul fac y i k.castSucc w = gacWW D foul fac y i w := rfl
  rw [e]
  unfold gacBead Spec.bulk
  rw [if_pos rfl]
  by_cases h0 : w = 0
  · subst h0
    rw [if_pos rfl, if_pos rfl]
    field_simp
    ring
  · rw [if_neg h0, if_neg h0, mul_div_cancel₀ _ hw, gacCbs, if_neg h0]
    ring

/-- C49. What the liquid loses by exchange is what the beads gain: beyond the inlet, the liquid rate plus
three times the partition coefficient times the bead uptake is advection alone. -/
theorem c49_exchange (D : GacDim n r z) (hw : D.wr (Fin.last r) ≠ 0) (cinfl foul fac : Fin n → ℝ)
    (y : GacState n r z) (i : Fin n) {dg : ℝ} (hdg : dg ≠ 0) (hdgI : D.dgI i = 1 / dg)
    {w : Fin (z + 1)} (h0 : w ≠ 0) :
    gacRhs D cinfl foul fac y i (Fin.last (r + 1)) w +
      3 * dg * ∑ k, D.wr k * gacRhs D cinfl foul fac y i k.castSucc w =
    -D.dg1 * ∑ w', D.az w w' * Spec.bulk cinfl y i w' := by
  rw [c49_bead D hw, gacRhs_liq, gacLiq, if_neg h0, gacCbs, if_neg h0, hdgI, Fin.sum_univ_succ]
  have e : ∀ w' : Fin z, Spec.bulk cinfl y i w'.succ = y i (Fin.last (r + 1)) w'.succ := by
    intro w'; unfold Spec.bulk; rw [if_neg (Fin.succ_ne_zero w')]
  simp only [e]
  unfold Spec.bulk
  rw [if_pos rfl, if_neg h0]
  field_simp
  ring

/-- C49. The inlet liquid row never changes. -/
theorem c49_inlet (D : GacDim n r z) (cinfl foul fac : Fin n → ℝ) (y : GacState n r z) (i : Fin n) :
    gacRhs D cinfl foul fac y i (Fin.last (r + 1)) 0 = 0 := by
  rw [gacRhs_liq, gacLiq, if_pos rfl]

/-! ### C88 -/

/-- Effective bead equation: `tort` is the tortuosity at the time. -/
theorem bead_flux {G : GacCol} {cs : Fin n → GacComp} {i : Fin n} (tort : ℝ)
    (hdp : dpUsed G (cs i) ≠ 0) (hd : dRatio G (cs i) ≠ 1)
    (hfl : 1e-130 ≤ dsUsed G (cs i) * dgsOf G (cs i) * G.tau / G.rad ^ 2)
    {y c q : ℝ} (hq : dgOf G (cs i) * y = dgsOf G (cs i) * q + dgpOf G * c) :
    bedpOf G cs i * facAOf tort (dRatio G (cs i)) * c + bedsOf G cs i * y =
      G.tau / G.rad ^ 2 * (dgtOf G cs / dgOf G (cs i)) *
        (dsUsed G (cs i) * dgsOf G (cs i) * q + dpUsed G (cs i) * (tortu0 G / tort) * dgpOf G * c +
          dsUsed G (cs i) * dgpOf G * (tortu0 G - 1) * (y - c)) := by
  unfold bedpOf bedsOf edsOf edpOf facAOf
  simp only
  rw [if_neg (not_lt.2 hfl)]
  have h1 : 1 - dRatio G (cs i) ≠ 0 := sub_ne_zero.2 (Ne.symm hd)
  have e : dRatio G (cs i) * dpUsed G (cs i) = dsUsed G (cs i) := by
    unfold dRatio; rw [div_mul_cancel₀ _ hdp]
  have hq' : dgsOf G (cs i) * q = dgOf G (cs i) * y - dgpOf G * c := by linarith
  have hdgd : dgOf G (cs i) = dgsOf G (cs i) + dgpOf G := rfl
  set T := G.tau / G.rad ^ 2 * (dgtOf G cs / dgOf G (cs i)) with hT
  have l1 : dpUsed G (cs i) * tortu0 G * dgpOf G * G.tau / G.rad ^ 2 * (1 - dRatio G (cs i)) *
      (dgtOf G cs / dgOf G (cs i)) * ((1 / tort - dRatio G (cs i)) / (1 - dRatio G (cs i))) * c =
      T * (dpUsed G (cs i) * (tortu0 G / tort) - dRatio G (cs i) * dpUsed G (cs i) * tortu0 G) *
        dgpOf G * c := by
    have : (1 - dRatio G (cs i)) * ((1 / tort - dRatio G (cs i)) / (1 - dRatio G (cs i))) =
        1 / tort - dRatio G (cs i) := by field_simp
    rw [hT]
    linear_combination (dpUsed G (cs i) * tortu0 G * dgpOf G * G.tau / G.rad ^ 2 *
      (dgtOf G cs / dgOf G (cs i)) * c) * this
  have l2 : (dsUsed G (cs i) * dgsOf G (cs i) * G.tau / G.rad ^ 2 +
      dRatio G (cs i) * (dpUsed G (cs i) * tortu0 G * dgpOf G * G.tau / G.rad ^ 2)) *
      (dgtOf G cs / dgOf G (cs i)) * y =
      T * (dsUsed G (cs i) * dgsOf G (cs i) + dRatio G (cs i) * dpUsed G (cs i) * tortu0 G * dgpOf G) * y := by
    rw [hT]; ring
  rw [l1, l2, e, mul_assoc (dsUsed G (cs i)) (dgsOf G (cs i)) q, hq', hdgd]
  ring

/-- C88, full statement: inside the bead the adsorbed compound diffuses with the surface coefficient and
the dissolved one with the pore coefficient, reduced by the growth of the tortuosity since the start. `q` is
the adsorbed part of the loading. -/
def BeadDiffusion : Prop :=
  ∀ (n : ℕ) (G : GacCol) (cs : Fin n → GacComp) (i : Fin n) (tort : ℝ), 1 ≤ tort →
    0 < dpUsed G (cs i) → dRatio G (cs i) ≠ 1 →
    1e-130 ≤ dsUsed G (cs i) * dgsOf G (cs i) * G.tau / G.rad ^ 2 →
    ∀ y c q : ℝ, dgOf G (cs i) * y = dgsOf G (cs i) * q + dgpOf G * c →
    bedpOf G cs i * facAOf tort (dRatio G (cs i)) * c + bedsOf G cs i * y =
      G.tau / G.rad ^ 2 * (dgtOf G cs / dgOf G (cs i)) *
        (dsUsed G (cs i) * dgsOf G (cs i) * q + dpUsed G (cs i) * (tortu0 G / tort) * dgpOf G * c)

/-- C88, what holds: whenever the initial tortuosity is 1, which is every fouled water and organic-free
water with the default. Missing: organic-free water with a tortuosity other than 1, where the surface
coefficient is applied `tortu` times to the pore part of the storage. -/
theorem c88_partial {G : GacCol} {cs : Fin n → GacComp} {i : Fin n} (ht : tortu0 G = 1) {tort : ℝ}
    (hdp : 0 < dpUsed G (cs i)) (hd : dRatio G (cs i) ≠ 1)
    (hfl : 1e-130 ≤ dsUsed G (cs i) * dgsOf G (cs i) * G.tau / G.rad ^ 2)
    {y c q : ℝ} (hq : dgOf G (cs i) * y = dgsOf G (cs i) * q + dgpOf G * c) :
    bedpOf G cs i * facAOf tort (dRatio G (cs i)) * c + bedsOf G cs i * y =
      G.tau / G.rad ^ 2 * (dgtOf G cs / dgOf G (cs i)) *
        (dsUsed G (cs i) * dgsOf G (cs i) * q + dpUsed G (cs i) * (tortu0 G / tort) * dgpOf G * c) := by
  rw [bead_flux tort hdp.ne' hd hfl hq, ht]
  ring

/-- C88. The initial tortuosity is 1 in every fouled water. -/
theorem c88_fouled {G : GacCol} (h : G.organicFree = false) : tortu0 G = 1 := by
  simp [tortu0, h]

/-- Column and compound used as a witness: supplied coefficients `dp = 2`, `ds = 1`. -/
noncomputable def demoCol (of : Bool) (tortu : ℝ) : GacCol :=
  ⟨1, 1, 1 / 2, 1, 1, 1, tortu, 1, 1, 1, of⟩
noncomputable def demoComp : GacComp := ⟨1, 1, 1, 1, 1, 0, 2, 1⟩

theorem demo_vals (tortu : ℝ) : dpUsed (demoCol true tortu) demoComp = 2 ∧
    dsUsed (demoCol true tortu) demoComp = 1 ∧ dgsOf (demoCol true tortu) demoComp = 1000 ∧
    dgpOf (demoCol true tortu) = 1 ∧ dgOf (demoCol true tortu) demoComp = 1001 ∧
    dRatio (demoCol true tortu) demoComp = 1 / 2 ∧
    dgtOf (demoCol true tortu) (fun _ : Fin 1 => demoComp) = 1001 := by
  have h1 : dpUsed (demoCol true tortu) demoComp = 2 := by simp [dpUsed, demoComp]
  have h2 : dsUsed (demoCol true tortu) demoComp = 1 := by simp [dsUsed, demoComp, demoCol]
  have h3 : dgsOf (demoCol true tortu) demoComp = 1000 := by
    simp [dgsOf, demoComp, demoCol, qeOf, molarK, cb0Of]; norm_num
  have h4 : dgpOf (demoCol true tortu) = 1 := by simp [dgpOf, demoCol]; norm_num
  have h5 : dgOf (demoCol true tortu) demoComp = 1001 := by rw [dgOf, h3, h4]; norm_num
  refine ⟨h1, h2, h3, h4, h5, by rw [dRatio, h1, h2], ?_⟩
  rw [dgtOf, Finset.univ_unique, Finset.sum_singleton, h5]

/-- C88 is false of the code: organic-free water with tortuosity 2. -/
theorem c88_false : ¬ BeadDiffusion := by
  intro h
  obtain ⟨h1, h2, h3, h4, h5, h6, h7⟩ := demo_vals 2
  have hfl : (1e-130 : ℝ) ≤ dsUsed (demoCol true 2) demoComp * dgsOf (demoCol true 2) demoComp *
      (demoCol true 2).tau / (demoCol true 2).rad ^ 2 := by
    rw [h2, h3]; norm_num [demoCol]
  have hq : dgOf (demoCol true 2) demoComp * 1 =
      dgsOf (demoCol true 2) demoComp * (1001 / 1000) + dgpOf (demoCol true 2) * 0 := by
    rw [h5, h3]; norm_num
  have e1 := h 1 (demoCol true 2) (fun _ => demoComp) 0 1 le_rfl (by rw [h1]; norm_num)
    (by rw [h6]; norm_num) hfl 1 0 (1001 / 1000) hq
  have e2 := bead_flux (cs := fun _ : Fin 1 => demoComp) (i := 0) 1 (by rw [h1]; norm_num)
    (by rw [h6]; norm_num) hfl hq
  rw [e1] at e2
  simp only [h1, h2, h3, h4, h5, h7] at e2
  simp [demoCol, tortu0] at e2
  norm_num at e2

/-- The hypotheses of `c88_partial` are met. -/
example : tortu0 (demoCol true 1) = 1 ∧ 0 < dpUsed (demoCol true 1) demoComp ∧
    dRatio (demoCol true 1) demoComp ≠ 1 ∧ 1e-130 ≤ dsUsed (demoCol true 1) demoComp *
      dgsOf (demoCol true 1) demoComp * (demoCol true 1).tau / (demoCol true 1).rad ^ 2 := by
  obtain ⟨h1, h2, h3, -, -, h6, -⟩ := demo_vals 1
  refine ⟨by simp [tortu0, demoCol], by rw [h1]; norm_num, by rw [h6]; norm_num, ?_⟩
  rw [h2, h3]; norm_num [demoCol]

/-! ### C56 -/

/-- C56. A reported effluent value is never negative. -/
theorem c56_nonneg {cb0 mw mm e : ℝ} (h1 : 0 ≤ cb0) (h2 : 0 ≤ mw) (h3 : 0 ≤ mm) :
    0 ≤ reported cb0 mw mm e := by
  unfold reported
  have : 0 ≤ (if e < 0 then 0 else e) := by split <;> linarith
  positivity

/-- C56. A nonnegative value is reported unchanged apart from the unit scaling. -/
theorem c56_unchanged {cb0 mw mm e : ℝ} (he : 0 ≤ e) : reported cb0 mw mm e = e * cb0 * mw / mm := by
  unfold reported; rw [if_neg (not_lt.2 he)]

/-- C56. The reported table, read between the solver's times, is never negative. -/
theorem c56_between {a b : ℝ × ℝ} {rest : List (ℝ × ℝ)} (hinc : Spec.Increasing (a :: b :: rest))
    (hn : ∀ x ∈ a :: b :: rest, 0 ≤ x.2) {t : ℝ} (h1 : a.1 ≤ t)
    (h2 : t ≤ ((a :: b :: rest).getLast (by simp)).1) : 0 ≤ interpExtrap (a :: b :: rest) t := by
  obtain ⟨c, d, hseg, hc, hd⟩ := on_segment h1 h2
  rw [interpExtrap_eq hinc hseg hc hd]
  obtain ⟨l, r', e⟩ := hseg
  rw [e] at hinc hn
  have hcd := (List.pairwise_cons.1 (List.pairwise_append.1 hinc).2.1).1 d (by simp)
  have hpos : 0 < d.1 - c.1 := by linarith
  have hw0 : 0 ≤ (t - c.1) / (d.1 - c.1) := div_nonneg (by linarith) hpos.le
  have hw1 : (t - c.1) / (d.1 - c.1) ≤ 1 := (div_le_one hpos).2 (by linarith)
  have e2 : (d.2 - c.2) / (d.1 - c.1) * (t - c.1) = (d.2 - c.2) * ((t - c.1) / (d.1 - c.1)) := by ring
  rw [e2]
  have hcn := hn c (by simp)
  have hdn := hn d (by simp)
  nlinarith

/-- C56. The reported entries are the liquid at the bed outlet, one per compound. -/
theorem c56_locator (i : Fin n) :
    effluentLocator (r + 1) (z + 1) i = gacIdx (r := r) i (Fin.last (r + 1)) (Fin.last z) := by
  unfold effluentLocator gacIdx
  simp only [Fin.val_last]
  have : (r + 1 + 1) * (z + 1) * ((i : ℕ) + 1) =
      (i : ℕ) * ((r + 2) * (z + 1)) + (r + 1) * (z + 1) + z + 1 := by ring
  omega

/-! ### C57 -/

/-- C57, full statement: a positive coefficient supplied for a compound is the one used. -/
def SuppliedUsed : Prop :=
  ∀ (G : GacCol) (c : GacComp), (0 < c.mtKf → kfUsed G c = c.mtKf) ∧ (0 < c.mtDp → dpUsed G c = c.mtDp) ∧
    (0 < c.mtDs → dsUsed G c = c.mtDs)

/-- C57 is false of the code: in every water but organic-free the supplied surface diffusion coefficient is
divided by 1e10. -/
theorem c57_false : ¬ SuppliedUsed := by
  intro h
  have h1 := (h ⟨1, 1, 1, 1, 1, 1, 1, 1, 1, 1, false⟩ ⟨1, 1, 1, 1, 1, 0, 0, 1⟩).2.2 (by norm_num)
  unfold dsUsed at h1
  simp at h1
  norm_num at h1

/-- C57, what holds: supplied `kf` and `dp` are used as given in every water, supplied `ds` in organic-free
water; zero (or a negative number) means the correlation. Missing: supplied `ds` in other waters, where
`ds/1e10` is used. -/
theorem c57_partial (G : GacCol) (c : GacComp) :
    (0 < c.mtKf → kfUsed G c = c.mtKf) ∧ (0 < c.mtDp → dpUsed G c = c.mtDp) ∧
    (0 < c.mtDs → dsUsed G c = if G.organicFree then c.mtDs else c.mtDs / 1e10) ∧
    (c.mtKf ≤ 0 → kfUsed G c = kfCorr G.vw G.dw c.molVol G.rad G.re G.ebed) ∧
    (c.mtDp ≤ 0 → dpUsed G c = difl G.vw c.molVol / tortu0 G) ∧
    (c.mtDs ≤ 0 → dsUsed G c = if G.organicFree then dsCorr G c else dsCorr G c / 1e10) := by
  refine ⟨fun h => if_pos h, fun h => if_pos h, fun h => ?_, fun h => if_neg (not_lt.2 h),
    fun h => if_neg (not_lt.2 h), fun h => ?_⟩
  · unfold dsUsed; simp only [gt_iff_lt, if_pos h]
  · unfold dsUsed; simp only [gt_iff_lt, if_neg (not_lt.2 h)]

/-- C57. Feeding the saved table back as supplied coefficients reproduces the same coefficients in
organic-free water. -/
theorem c57_saved {G : GacCol} {c c' : GacComp} (hof : G.organicFree = true) (hk : 0 < (mtSaved G c).1)
    (hp : 0 < (mtSaved G c).2.1) (hs : 0 < (mtSaved G c).2.2)
    (h : (c'.mtKf, c'.mtDp, c'.mtDs) = mtSaved G c) : mtSaved G c' = mtSaved G c := by
  have h1 := c57_partial G c'
  rw [← h] at hk hp hs ⊢
  simp only at hk hp hs
  unfold mtSaved
  rw [h1.1 hk, h1.2.1 hp, h1.2.2.1 hs, if_pos hof]

end WTM
