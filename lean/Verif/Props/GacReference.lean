import Mathlib.Tactic
import Verif.Props.GacRelative

/-! Property C231: the first row of the influent table as the reference of a carbon column. -/
set_option autoImplicit false
namespace WTM
open BigOperators Set

section
variable {n r z : ℕ}

/-- The same state referred to other first influent values: the same loadings in umol/g and concentrations in umol/L. -/
noncomputable def Spec.referred (cs cs' : Fin n → GacComp) (y : GacState n r z) : GacState n r z := fun i a w =>
  Fin.lastCases (motive := fun _ => ℝ) (cb0Of (cs i).c0 / cb0Of (cs' i).c0 * y i (Fin.last (r + 1)) w)
    (fun k => qeOf (cs i) / qeOf (cs' i) * y i k.castSucc w) a

/-- The same influent referred to other first values. -/
noncomputable def Spec.referredInfl (cs cs' : Fin n → GacComp) (cinfl : Fin n → ℝ) (i : Fin n) : ℝ :=
  cb0Of (cs i).c0 / cb0Of (cs' i).c0 * cinfl i

theorem referred_last (cs cs' : Fin n → GacComp) (y : GacState n r z) (i : Fin n) (w : Fin (z + 1)) :
    Spec.referred cs cs' y i (Fin.last (r + 1)) w = cb0Of (cs i).c0 / cb0Of (cs' i).c0 * y i (Fin.last (r + 1)) w := by
  unfold Spec.referred
  rw [Fin.lastCases_last]

theorem referred_bead (cs cs' : Fin n → GacComp) (y : GacState n r z) (i : Fin n) (k : Fin (r + 1)) (w : Fin (z + 1)) :
    Spec.referred cs cs' y i k.castSucc w = qeOf (cs i) / qeOf (cs' i) * y i k.castSucc w := by
  unfold Spec.referred
  rw [Fin.lastCases_castSucc]

/-- Compounds that differ in the first influent value only. -/
def Spec.SameButFirst (c c' : GacComp) : Prop := c' = { c with c0 := c'.c0 }

/-- C231, full statement: the first influent value is only a reference. The same column in the same state, referred to other first
values, has the same rates in umol/L and in umol/g per second. -/
def ReferenceOnly : Prop :=
  ∀ (n r z : ℕ) (G : GacCol) (cs cs' : Fin n → GacComp) (wr : Fin (r + 1) → ℝ) (br : Fin (r + 1) → Fin (r + 1) → ℝ)
    (az : Fin (z + 1) → Fin (z + 1) → ℝ) (cinfl foul fac : Fin n → ℝ) (y : GacState n r z) (i : Fin n) (w : Fin (z + 1)),
    (∀ j, (cs j).Ok ∧ (cs' j).Ok) → (∀ j, Spec.SameButFirst (cs j) (cs' j)) → 0 < G.tau → 0 < G.ebed → G.ebed < 1 → 0 < G.rad →
    0 < G.rhop → 0 < G.epor →
    let rate := fun a => perSecond G cs (gacRhs (gacDim G cs wr br az) cinfl foul fac y i a w)
    let rate' := fun a => perSecond G cs' (gacRhs (gacDim G cs' wr br az) (Spec.referredInfl cs cs' cinfl) foul fac
      (Spec.referred cs cs' y) i a w)
    rate' (Fin.last (r + 1)) * cb0Of (cs' i).c0 = rate (Fin.last (r + 1)) * cb0Of (cs i).c0 ∧
    ∀ k : Fin (r + 1), rate' k.castSucc * qeOf (cs' i) = rate k.castSucc * qeOf (cs i)

theorem first_molarK {c c' : GacComp} (h : Spec.SameButFirst c c') : molarK c'.K c'.mw c'.xn = molarK c.K c.mw c.xn := by
  rw [h]

theorem first_xn {c c' : GacComp} (h : Spec.SameButFirst c c') : c'.xn = c.xn := by rw [h]

theorem qe_first {c c' : GacComp} (h : Spec.SameButFirst c c') (hc : c.Ok) (hc' : c'.Ok) :
    (qeOf c / qeOf c') ^ (1 / c.xn) = cb0Of c.c0 / cb0Of c'.c0 := by
  have h1 := cb0_pos hc
  have h2 := cb0_pos hc'
  have h3 : 0 < molarK c.K c.mw c.xn := molarK_pos hc.1 hc.2.2.1
  have e : qeOf c / qeOf c' = (cb0Of c.c0 / cb0Of c'.c0) ^ c.xn := by
    unfold qeOf
    rw [first_molarK h, first_xn h, mul_div_mul_left _ _ h3.ne', Real.div_rpow h1.le h2.le]
  rw [e, ← Real.rpow_mul (div_pos h1 h2).le, mul_one_div_cancel hc.2.1.ne', Real.rpow_one]

/-- C231. The pore concentrations in umol/L do not depend on the reference, for every exponent and with competition. -/
theorem c231_pore {cs cs' : Fin n → GacComp} (hok : ∀ j, (cs j).Ok ∧ (cs' j).Ok) (hs : ∀ j, Spec.SameButFirst (cs j) (cs' j))
    (G : GacCol) (wr : Fin (r + 1) → ℝ) (br : Fin (r + 1) → Fin (r + 1) → ℝ) (az : Fin (z + 1) → Fin (z + 1) → ℝ)
    {foul : Fin n → ℝ} (hf : ∀ i, 0 ≤ foul i) (y : GacState n r z) (i : Fin n) (k : Fin (r + 1)) (w : Fin (z + 1)) :
    cporeAt (gacDim G cs' wr br az) foul (Spec.referred cs cs' y) i k w * cb0Of (cs' i).c0 =
      cporeAt (gacDim G cs wr br az) foul y i k w * cb0Of (cs i).c0 := by
  have : Nonempty (Fin n) := ⟨i⟩
  have hq : ∀ j, 0 < qeOf (cs j) := fun j => qe_pos (hok j).1
  have hq' : ∀ j, 0 < qeOf (cs' j) := fun j => qe_pos (hok j).2
  have hQ : 0 < ∑ j, qeOf (cs j) := Finset.sum_pos (fun j _ => hq j) Finset.univ_nonempty
  have hQ' : 0 < ∑ j, qeOf (cs' j) := Finset.sum_pos (fun j _ => hq' j) Finset.univ_nonempty
  have hy : ∀ j, 0 < ymOf cs j := ym_pos fun j => (hok j).1
  have hy' : ∀ j, 0 < ymOf cs' j := ym_pos fun j => (hok j).2
  have hx : ∀ j, 0 < (cs j).xn := fun j => (hok j).1.2.1
  have hx' : ∀ j, (cs' j).xn = (cs j).xn := fun j => first_xn (hs j)
  set s := (∑ j, qeOf (cs j)) / ∑ j, qeOf (cs' j) with hsd
  have hs0 : 0 < s := div_pos hQ hQ'
  set v : Fin n → ℝ := fun j => y j k.castSucc w with hv
  have hprod : ∀ j, ymOf cs' j * (qeOf (cs j) / qeOf (cs' j) * v j) = s * (ymOf cs j * v j) := by
    intro j
    have := hq j
    have := hq' j
    unfold ymOf
    rw [hsd]
    field_simp
  have hb : ∀ (c : Fin n → GacComp) (u : Fin n → ℝ) (j : Fin n), (∀ j, (c j).Ok) →
      0 ≤ (if ymOf c j * u j < 0 then 0 else ymOf c j * u j) := by
    intro c u j _
    split
    · exact le_rfl
    · exact not_lt.1 ‹_›
  -- the two clipped products
  have hz : ∀ j, (if ymOf cs' j * (qeOf (cs j) / qeOf (cs' j) * v j) < 0 then 0 else
      ymOf cs' j * (qeOf (cs j) / qeOf (cs' j) * v j)) = s * (if ymOf cs j * v j < 0 then 0 else ymOf cs j * v j) := by
    intro j
    rw [hprod]
    by_cases h : ymOf cs j * v j < 0
    · rw [if_pos h, if_pos (mul_neg_of_pos_of_neg hs0 h), mul_zero]
    · rw [if_neg h, if_neg (not_lt.2 (mul_nonneg hs0.le (not_lt.1 h)))]
  have key : cpore (ymOf cs') (fun i => (cs' i).xn) foul (fun j => qeOf (cs j) / qeOf (cs' j) * v j) i * cb0Of (cs' i).c0 =
      cpore (ymOf cs) (fun i => (cs i).xn) foul v i * cb0Of (cs i).c0 := by
    unfold cpore
    simp only [hz, hx']
    have hpos : ∀ j, 0 ≤ (if ymOf cs j * v j < 0 then 0 else ymOf cs j * v j) := fun j => hb cs v j fun j => (hok j).1
    have e1 : ∑ j, s * (if ymOf cs j * v j < 0 then 0 else ymOf cs j * v j) =
        s * ∑ j, (if ymOf cs j * v j < 0 then 0 else ymOf cs j * v j) := (Finset.mul_sum _ _ _).symm
    have e2 : ∑ j, 1 / (cs j).xn * (s * (if ymOf cs j * v j < 0 then 0 else ymOf cs j * v j)) =
        s * ∑ j, 1 / (cs j).xn * (if ymOf cs j * v j < 0 then 0 else ymOf cs j * v j) := by
      rw [Finset.mul_sum]
      exact Finset.sum_congr rfl fun j _ => by ring
    rw [e1, e2]
    have hS : 0 ≤ ∑ j, (if ymOf cs j * v j < 0 then 0 else ymOf cs j * v j) := Finset.sum_nonneg fun j _ => hpos j
    have hB : 0 ≤ ∑ j, 1 / (cs j).xn * (if ymOf cs j * v j < 0 then 0 else ymOf cs j * v j) :=
      Finset.sum_nonneg fun j _ => mul_nonneg (one_div_pos.2 (hx j)).le (hpos j)
    rcases hS.eq_or_lt with h0 | h0
    · have hall : ∀ j, (if ymOf cs j * v j < 0 then 0 else ymOf cs j * v j) = 0 := fun j =>
        (Finset.sum_eq_zero_iff_of_nonneg fun j _ => hpos j).1 h0.symm j (Finset.mem_univ j)
      simp only [hall, mul_zero, Finset.sum_const_zero]
      simp
    · generalize (∑ j, if ymOf cs j * v j < 0 then 0 else ymOf cs j * v j) = A at h0
      generalize (∑ j, 1 / (cs j).xn * if ymOf cs j * v j < 0 then 0 else ymOf cs j * v j) = B at hB
      have hsA : 0 < s * A := mul_pos hs0 h0
      have q : (cs i).xn / ymOf cs' i * (s * B) = qeOf (cs i) / qeOf (cs' i) * ((cs i).xn / ymOf cs i * B) := by
        have := hq i
        have := hq' i
        unfold ymOf
        rw [hsd]
        field_simp
      have hq0 : 0 ≤ (cs i).xn / ymOf cs i * B := mul_nonneg (div_pos (hx i) (hy i)).le hB
      rw [if_neg hsA.ne', if_neg h0.ne', q, if_neg (not_le.2 hsA), if_neg (not_le.2 h0), mul_div_mul_left _ _ hs0.ne']
      have c1 : (s * B ≤ 0) ↔ B ≤ 0 := by
        constructor
        · intro h; by_contra hc; exact absurd h (not_le.2 (mul_pos hs0 (not_le.1 hc)))
        · intro h; exact mul_nonpos_of_nonneg_of_nonpos hs0.le h
      have hr0 := (div_pos (hq i) (hq' i)).le
      have n1 : ¬ 1 / (cs i).xn * (qeOf (cs i) / qeOf (cs' i) * ((cs i).xn / ymOf cs i * B)) < -20 := by
        have := mul_nonneg (one_div_pos.2 (hx i)).le (mul_nonneg hr0 hq0)
        linarith
      have n2 : ¬ 1 / (cs i).xn * ((cs i).xn / ymOf cs i * B) < -20 := by
        have := mul_nonneg (one_div_pos.2 (hx i)).le hq0
        linarith
      simp only [c1, not_le.2 hsA, not_le.2 h0, n1, n2, false_or, or_false]
      by_cases hB0 : B ≤ 0
      · rw [if_pos hB0, if_pos hB0, zero_mul, zero_mul]
      · rw [if_neg hB0, if_neg hB0, Real.mul_rpow hr0 hq0, qe_first (hs i) (hok i).1 (hok i).2]
        have := cb0_pos (hok i).2
        field_simp
  have hn : 0 ≤ cpore (ymOf cs) (fun i => (cs i).xn) foul v i :=
    c48_nonneg (fun j => (hy j).le) (fun j => (hx j).le) hf i
  have hn' : 0 ≤ cpore (ymOf cs') (fun i => (cs' i).xn) foul (fun j => qeOf (cs j) / qeOf (cs' j) * v j) i :=
    c48_nonneg (fun j => (hy' j).le) (fun j => by rw [hx']; exact (hx j).le) hf i
  unfold cporeAt
  simp only [referred_bead]
  show (if k = Fin.last r ∧ cpore (ymOf cs') (fun i => (cs' i).xn) foul (fun j => qeOf (cs j) / qeOf (cs' j) * v j) i < 0 then 0 else
      cpore (ymOf cs') (fun i => (cs' i).xn) foul (fun j => qeOf (cs j) / qeOf (cs' j) * v j) i) * _ =
    (if k = Fin.last r ∧ cpore (ymOf cs) (fun i => (cs i).xn) foul v i < 0 then 0 else
      cpore (ymOf cs) (fun i => (cs i).xn) foul v i) * _
  rw [if_neg fun h => not_lt.2 hn' h.2, if_neg fun h => not_lt.2 hn h.2, key]

/-- C231. The surface diffusivity taken from the pore to surface ratio depends on the first influent value: it grows with its
power `1 - 1/n`. A first value of zero counts as 1 umol/L. -/
theorem c231_diffusivity (G : GacCol) {c c' : GacComp} (hs : Spec.SameButFirst c c') (hc : c.Ok) (hc' : c'.Ok) (hd : c.mtDs ≤ 0) :
    dsUsed G c' = (cb0Of c'.c0 / cb0Of c.c0) ^ (1 - c.xn) * dsUsed G c := by
  have h1 := cb0_pos hc
  have h2 := cb0_pos hc'
  have p1 := Real.rpow_pos_of_pos h1 c.xn
  have p2 := Real.rpow_pos_of_pos h2 c.xn
  have e : ∀ x : ℝ, 0 < x → x ^ (1 - c.xn) = x / x ^ c.xn := fun x hx => by rw [Real.rpow_sub hx, Real.rpow_one]
  have hd' : c'.mtDs ≤ 0 := by rw [hs]; exact hd
  have hv : c'.molVol = c.molVol := by rw [hs]
  have key : dsCorr G c' = (cb0Of c'.c0 / cb0Of c.c0) ^ (1 - c.xn) * dsCorr G c := by
    unfold dsCorr
    rw [first_molarK hs, first_xn hs, hv, Real.div_rpow h2.le h1.le, e _ h1, e _ h2]
    have h3 : molarK c.K c.mw c.xn ≠ 0 := (molarK_pos hc.1 hc.2.2.1).ne'
    by_cases ht : tortu0 G = 0
    · simp [ht]
    · by_cases hr : G.rhop = 0
      · simp [hr]
      · field_simp
  unfold dsUsed
  simp only
  rw [if_neg (not_lt.2 hd), if_neg (not_lt.2 hd'), key]
  split
  · rfl
  · ring

/-- C231, what holds for every exponent: the water. Its flow does not depend on the reference, the film transfer only by the
factor of C92. Missing: that factor, and the inside of the beads, where the reference sets how much of the content counts as pore
water and, by `c231_diffusivity`, the surface diffusivity. -/
theorem c231_water_partial {cs cs' : Fin n → GacComp} (hok : ∀ j, (cs j).Ok ∧ (cs' j).Ok)
    (hs : ∀ j, Spec.SameButFirst (cs j) (cs' j)) {G : GacCol} (ht : 0 < G.tau) (he : 0 < G.ebed) (hr : 0 < G.rad)
    (hdg : 0 < dgtOf G cs) (hdg' : 0 < dgtOf G cs') (wr : Fin (r + 1) → ℝ) (br : Fin (r + 1) → Fin (r + 1) → ℝ)
    (az : Fin (z + 1) → Fin (z + 1) → ℝ) (cinfl : Fin n → ℝ) {foul : Fin n → ℝ} (hf : ∀ i, 0 ≤ foul i) (fac : Fin n → ℝ)
    (y : GacState n r z) (i : Fin n) {w : Fin (z + 1)} (hw : w ≠ 0) :
    ∃ flow film,
      perSecond G cs (gacRhs (gacDim G cs wr br az) cinfl foul fac y i (Fin.last (r + 1)) w) * cb0Of (cs i).c0 = flow - film ∧
      perSecond G cs' (gacRhs (gacDim G cs' wr br az) (Spec.referredInfl cs cs' cinfl) foul fac (Spec.referred cs cs' y) i
        (Fin.last (r + 1)) w) * cb0Of (cs' i).c0 = flow - Spec.absentFactor (dgtOf G cs) (dgtOf G cs') * film ∧
      flow = -(1 / G.tau) * ∑ w', az w w' * Spec.bulk cinfl y i w' * cb0Of (cs i).c0 := by
  have h2 := cb0_pos (hok i).2
  have hbulk : ∀ w, Spec.bulk (Spec.referredInfl cs cs' cinfl) (Spec.referred cs cs' y) i w =
      cb0Of (cs i).c0 / cb0Of (cs' i).c0 * Spec.bulk cinfl y i w := by
    intro w
    unfold Spec.bulk
    split
    · rfl
    · exact referred_last cs cs' y i w
  have hk : kfUsed G (cs' i) = kfUsed G (cs i) := by rw [hs i]; rfl
  have hp := c231_pore hok hs G wr br az hf y i (Fin.last r) w
  rw [c92_liquid_partial G cs wr br az cinfl foul fac y i ht he hr hdg hw,
    c92_liquid_partial G cs' wr br az _ foul fac _ i ht he hr hdg' hw]
  refine ⟨_, dgtOf G cs / (1 + dgtOf G cs) * (Spec.beadArea G * kfUsed G (cs i) *
        (Spec.bulk cinfl y i w - cporeAt (gacDim G cs wr br az) foul y i (Fin.last r) w)) * cb0Of (cs i).c0, ?_, ?_, rfl⟩
  · rw [sub_mul, mul_assoc, Finset.sum_mul]
  · rw [sub_mul, hk]
    simp only [hbulk]
    have hS : -(1 / G.tau) * (∑ w', az w w' * (cb0Of (cs i).c0 / cb0Of (cs' i).c0 * Spec.bulk cinfl y i w')) * cb0Of (cs' i).c0 =
        -(1 / G.tau) * ∑ w', az w w' * Spec.bulk cinfl y i w' * cb0Of (cs i).c0 := by
      rw [mul_assoc, Finset.sum_mul]
      congr 1
      refine Finset.sum_congr rfl fun w' _ => ?_
      field_simp
    rw [hS]
    congr 1
    have a : 1 + dgtOf G cs ≠ 0 := by positivity
    have b : 1 + dgtOf G cs' ≠ 0 := by positivity
    have hB : (cb0Of (cs i).c0 / cb0Of (cs' i).c0 * Spec.bulk cinfl y i w -
        cporeAt (gacDim G cs' wr br az) foul (Spec.referred cs cs' y) i (Fin.last r) w) * cb0Of (cs' i).c0 =
        (Spec.bulk cinfl y i w - cporeAt (gacDim G cs wr br az) foul y i (Fin.last r) w) * cb0Of (cs i).c0 := by
      rw [sub_mul, hp, sub_mul]
      congr 1
      field_simp
    rw [mul_assoc, mul_assoc (Spec.beadArea G * _), hB]
    unfold Spec.absentFactor
    field_simp

/-- C231, what holds exactly: with exponents 1 the first influent value is only a reference, also inside the beads, whether
diffusivities are given or not and whatever the number of compounds. -/
theorem c231_linear_partial {cs cs' : Fin n → GacComp} (hok : ∀ j, (cs j).Ok ∧ (cs' j).Ok)
    (hs : ∀ j, Spec.SameButFirst (cs j) (cs' j)) (hx : ∀ j, (cs j).xn = 1) (G : GacCol) (wr : Fin (r + 1) → ℝ)
    (br : Fin (r + 1) → Fin (r + 1) → ℝ) (az : Fin (z + 1) → Fin (z + 1) → ℝ) (cinfl : Fin n → ℝ) {foul : Fin n → ℝ}
    (hf : ∀ i, 0 ≤ foul i) (fac : Fin n → ℝ) (y : GacState n r z) (i : Fin n) (w : Fin (z + 1)) :
    let rate := fun a => perSecond G cs (gacRhs (gacDim G cs wr br az) cinfl foul fac y i a w)
    let rate' := fun a => perSecond G cs' (gacRhs (gacDim G cs' wr br az) (Spec.referredInfl cs cs' cinfl) foul fac
      (Spec.referred cs cs' y) i a w)
    rate' (Fin.last (r + 1)) * cb0Of (cs' i).c0 = rate (Fin.last (r + 1)) * cb0Of (cs i).c0 ∧
    ∀ k : Fin (r + 1), rate' k.castSucc * qeOf (cs' i) = rate k.castSucc * qeOf (cs i) := by
  intro rate rate'
  have h1 : ∀ j, 0 < cb0Of (cs j).c0 := fun j => cb0_pos (hok j).1
  have h2 : ∀ j, 0 < cb0Of (cs' j).c0 := fun j => cb0_pos (hok j).2
  have hq : ∀ j, qeOf (cs j) = molarK (cs j).K (cs j).mw (cs j).xn * cb0Of (cs j).c0 := fun j => by
    unfold qeOf; rw [hx, Real.rpow_one]
  have hq' : ∀ j, qeOf (cs' j) = molarK (cs j).K (cs j).mw (cs j).xn * cb0Of (cs' j).c0 := fun j => by
    unfold qeOf; rw [first_molarK (hs j), first_xn (hs j), hx, Real.rpow_one]
  have hmk : ∀ j, 0 < molarK (cs j).K (cs j).mw (cs j).xn := fun j => molarK_pos (hok j).1.1 (hok j).1.2.2.1
  have hqq : ∀ j, qeOf (cs j) / qeOf (cs' j) = cb0Of (cs j).c0 / cb0Of (cs' j).c0 := fun j => by
    rw [hq, hq', mul_div_mul_left _ _ (hmk j).ne']
  have q1 : ∀ j, kfUsed G (cs' j) = kfUsed G (cs j) := fun j => by rw [hs j]; rfl
  have q2 : ∀ j, dpUsed G (cs' j) = dpUsed G (cs j) := fun j => by rw [hs j]; rfl
  have q4 : ∀ j, dsUsed G (cs' j) = dsUsed G (cs j) := by
    intro j
    by_cases hd : (cs j).mtDs ≤ 0
    · rw [c231_diffusivity G (hs j) (hok j).1 (hok j).2 hd, hx, sub_self, Real.rpow_zero, one_mul]
    · have hd' : (cs' j).mtDs = (cs j).mtDs := by rw [hs j]
      unfold dsUsed
      simp only
      rw [hd', if_pos (not_le.1 hd), if_pos (not_le.1 hd)]
  have q5 : ∀ j, dgsOf G (cs' j) = dgsOf G (cs j) := by
    intro j
    unfold dgsOf
    rw [hq, hq']
    have := h1 j
    have := h2 j
    by_cases hb : G.ebed = 0
    · simp [hb]
    · field_simp
  have q6 : ∀ j, dgOf G (cs' j) = dgOf G (cs j) := fun j => by simp only [dgOf, q5]
  have q7 : dgtOf G cs' = dgtOf G cs := by simp only [dgtOf, q6]
  have q8 : ∀ j, dRatio G (cs' j) = dRatio G (cs j) := fun j => by simp only [dRatio, q2, q4]
  have q9 : ∀ j, edsOf G (cs' j) = edsOf G (cs j) := fun j => by simp only [edsOf, q4, q5]
  have q10 : ∀ j, edpOf G (cs' j) = edpOf G (cs j) := fun j => by simp only [edpOf, q2]
  have d1 : (gacDim G cs' wr br az).beds i = (gacDim G cs wr br az).beds i := by
    show bedsOf G cs' i = bedsOf G cs i
    simp only [bedsOf, q6, q7, q8, q9, q10]
  have d2 : (gacDim G cs' wr br az).bedp i = (gacDim G cs wr br az).bedp i := by
    show bedpOf G cs' i = bedpOf G cs i
    simp only [bedpOf, q6, q7, q8, q10]
  have d3 : (gacDim G cs' wr br az).stdv i = (gacDim G cs wr br az).stdv i := by
    show stdvOf G cs' i = stdvOf G cs i
    simp only [stdvOf, q1, q7]
  have d4 : (gacDim G cs' wr br az).dgI i = (gacDim G cs wr br az).dgI i := by
    show 1 / dgOf G (cs' i) = 1 / dgOf G (cs i)
    rw [q6]
  have d5 : (gacDim G cs' wr br az).dg1 = (gacDim G cs wr br az).dg1 := by
    show dg1Of G cs' = dg1Of G cs
    simp only [dg1Of, q7]
  have d6 : tconvOf G cs' = tconvOf G cs := by simp only [tconvOf, dg1Of, q7]
  set u := cb0Of (cs i).c0 / cb0Of (cs' i).c0 with hu
  have hcp : ∀ k w, cporeAt (gacDim G cs' wr br az) foul (Spec.referred cs cs' y) i k w =
      u * cporeAt (gacDim G cs wr br az) foul y i k w := by
    intro k w
    have := c231_pore hok hs G wr br az hf y i k w
    have h := h2 i
    rw [hu]
    field_simp
    linarith
  have hbead : ∀ (k : Fin (r + 1)) w, Spec.referred cs cs' y i k.castSucc w = u * y i k.castSucc w := fun k w => by
    rw [referred_bead, hqq]
  have hlast : ∀ w, Spec.referred cs cs' y i (Fin.last (r + 1)) w = u * y i (Fin.last (r + 1)) w := fun w => referred_last cs cs' y i w
  have hinf : Spec.referredInfl cs cs' cinfl i = u * cinfl i := rfl
  have hbb : ∀ k w, gacBB (gacDim G cs' wr br az) foul fac (Spec.referred cs cs' y) i k w =
      u * gacBB (gacDim G cs wr br az) foul fac y i k w := by
    intro k w
    unfold gacBB
    simp only [hcp, hbead, d1, d2]
    rw [mul_add, Finset.mul_sum, ← mul_assoc, Finset.mul_sum]
    congr 1
    · congr 1
      refine Finset.sum_congr rfl fun l _ => ?_
      show br k l * _ * _ = u * (br k l * _ * _)
      ring
    · refine Finset.sum_congr rfl fun l _ => ?_
      show br k l * _ * _ = u * (br k l * _ * _)
      ring
  have hww : ∀ w, gacWW (gacDim G cs' wr br az) foul fac (Spec.referred cs cs' y) i w = u * gacWW (gacDim G cs wr br az) foul fac y i w := by
    intro w
    unfold gacWW
    simp only [hbb]
    rw [Finset.mul_sum]
    refine Finset.sum_congr rfl fun l _ => ?_
    show wr _ * _ = u * (wr _ * _)
    ring
  have hcb : ∀ w, gacCbs (gacDim G cs' wr br az) foul (Spec.referred cs cs' y) i w = u * gacCbs (gacDim G cs wr br az) foul y i w := by
    intro w
    unfold gacCbs
    simp only [hcp, hlast, d3]
    split
    · simp
    · ring
  have hne : cb0Of (cs' i).c0 ≠ 0 := (h2 i).ne'
  constructor
  · show perSecond G cs' (gacRhs _ _ _ _ _ _ _ _) * _ = perSecond G cs (gacRhs _ _ _ _ _ _ _ _) * _
    rw [gacRhs_liq, gacRhs_liq]
    have key : gacLiq (gacDim G cs' wr br az) (Spec.referredInfl cs cs' cinfl) foul (Spec.referred cs cs' y) i w =
        u * gacLiq (gacDim G cs wr br az) cinfl foul y i w := by
      unfold gacLiq
      simp only [hcb, hlast, hinf, d5]
      split
      · simp
      · have e : ∑ w' : Fin z, (gacDim G cs' wr br az).az w w'.succ * (u * y i (Fin.last (r + 1)) w'.succ) =
            u * ∑ w' : Fin z, (gacDim G cs wr br az).az w w'.succ * y i (Fin.last (r + 1)) w'.succ := by
          rw [Finset.mul_sum]
          refine Finset.sum_congr rfl fun w' _ => ?_
          show az w _ * _ = u * (az w _ * _)
          ring
        rw [e]
        show -_ * (az w 0 * _ + _) - _ = u * (-_ * (az w 0 * _ + _) - _)
        ring
    rw [key]
    unfold perSecond
    rw [d6, hu]
    field_simp
  · intro k
    show perSecond G cs' (gacRhs _ _ _ _ _ _ _ _) * _ = perSecond G cs (gacRhs _ _ _ _ _ _ _ _) * _
    rw [gacRhs_bead, gacRhs_bead]
    have key : gacBead (gacDim G cs' wr br az) (Spec.referredInfl cs cs' cinfl) foul fac (Spec.referred cs cs' y) i k w =
        u * gacBead (gacDim G cs wr br az) cinfl foul fac y i k w := by
      unfold gacBead
      simp only [hcp, hbb, hww, hcb, hinf, d3, d4]
      split
      · split
        · show _ / wr _ = u * (_ / wr _)
          ring
        · show _ / wr _ = u * (_ / wr _)
          ring
      · rfl
    rw [key]
    unfold perSecond
    rw [d6, hu, hq, hq']
    field_simp

/-- C231 is false of the code: a single compound with exponent 1/2 whose first sample is 4 instead of 1 umol/L. -/
theorem c231_false : ¬ ReferenceOnly := by
  intro h
  let G := demoCol true 1
  let c : GacComp := ⟨1, 1 / 2, 1, 1, 1, 1, 2, 1⟩
  let c' : GacComp := { c with c0 := 4 }
  let az : Fin 2 → Fin 2 → ℝ := fun _ _ => 0
  let y : GacState 1 0 1 := fun _ a _ => if a = 0 then 0 else 1
  have hok : c.Ok ∧ c'.Ok := by
    refine ⟨⟨?_, ?_, ?_, ?_⟩, ⟨?_, ?_, ?_, ?_⟩⟩ <;> norm_num [c, c']
  have hG : 0 < G.tau ∧ 0 < G.ebed ∧ G.ebed < 1 ∧ 0 < G.rad ∧ 0 < G.rhop ∧ 0 < G.epor := by
    refine ⟨?_, ?_, ?_, ?_, ?_, ?_⟩ <;> norm_num [G, demoCol]
  have s4 : (4:ℝ) ^ (1 / 2 : ℝ) = 2 := by
    rw [show (4:ℝ) = 2 ^ (2:ℝ) by norm_num, ← Real.rpow_mul (by norm_num)]
    norm_num
  have d1 : dgtOf G (fun _ : Fin 1 => c) = 1001 := by
    rw [dgtOf, Finset.univ_unique, Finset.sum_singleton]
    simp [dgOf, dgsOf, dgpOf, G, demoCol, c, qeOf, molarK, cb0Of]; norm_num
  have d2 : dgtOf G (fun _ : Fin 1 => c') = 501 := by
    rw [dgtOf, Finset.univ_unique, Finset.sum_singleton]
    have : qeOf c' = 2 := by
      simp only [qeOf, molarK, cb0Of, c', c]
      rw [if_neg (by norm_num), s4]
      norm_num
    have e : cb0Of c'.c0 = 4 := if_neg (by norm_num [c'])
    simp only [dgOf, dgsOf, dgpOf, this, e]
    norm_num [G, demoCol]
  have h1 := (h 1 0 1 G (fun _ => c) (fun _ => c') (fun _ => 1) (fun _ _ => 0) az (fun _ => 0) (fun _ => 1) (fun _ => 1) y 0 1
    (fun _ => hok) (fun _ => rfl) hG.1 hG.2.1 hG.2.2.1 hG.2.2.2.1 hG.2.2.2.2.1 hG.2.2.2.2.2).1
  have b := c231_water_partial (cs := fun _ : Fin 1 => c) (cs' := fun _ => c') (fun _ => hok) (fun _ => rfl) hG.1 hG.2.1 hG.2.2.2.1
    (by rw [d1]; norm_num) (by rw [d2]; norm_num) (fun _ : Fin 1 => 1) (fun _ _ => 0) az (fun _ => 0) (foul := fun _ => 1)
    (fun _ => zero_le_one) (fun _ => 1) y 0 (w := 1) (by decide)
  obtain ⟨flow, film, b1, b2, b3⟩ := b
  have h2 : flow - Spec.absentFactor 1001 501 * film = flow - film := by
    rw [← b1, ← d1, ← d2, ← b2]
    exact h1
  have hfilm : film = 0 := by
    have : Spec.absentFactor 1001 501 ≠ 1 := by norm_num [Spec.absentFactor]
    have h3 : (Spec.absentFactor 1001 501 - 1) * film = 0 := by linarith
    exact (mul_eq_zero.1 h3).resolve_left (sub_ne_zero.2 this)
  have hflow : flow = 0 := by rw [b3]; simp [az]
  rw [hfilm, hflow] at b1
  have a := c92_liquid_partial G (fun _ : Fin 1 => c) (fun _ : Fin 1 => 1) (fun _ _ => 0) az (fun _ => 0) (fun _ => 1) (fun _ => 1) y 0
    (w := 1) hG.1 hG.2.1 hG.2.2.2.1 (by rw [d1]; norm_num) (by decide)
  rw [a, d1] at b1
  have hc : cporeAt (gacDim G (fun _ : Fin 1 => c) (fun _ : Fin 1 => 1) (fun _ _ => 0) az) (fun _ => 1) y 0 (Fin.last 0) 1 = 0 := by
    simp [cporeAt, cpore, y]
  have hb : Spec.bulk (fun _ : Fin 1 => (0:ℝ)) y 0 1 = 1 := by simp [Spec.bulk, y]
  have hk : kfUsed G c = 1 := by simp [kfUsed, c]
  rw [hc, hb, hk] at b1
  norm_num [Spec.beadArea, G, demoCol, az, cb0Of, c] at b1

/-- Two compounds with exponent 1; the second is missing from the first sample. -/
example : let cs : Fin 2 → GacComp := fun i => ⟨100, 1, 131, 90, 1 - i, 0, 0, 0⟩
    let cs' : Fin 2 → GacComp := fun i => ⟨100, 1, 131, 90, 3 + i, 0, 0, 0⟩
    (∀ j, (cs j).Ok ∧ (cs' j).Ok) ∧ (∀ j, Spec.SameButFirst (cs j) (cs' j)) ∧ (∀ j, (cs j).xn = 1) ∧ (cs 1).c0 = 0 := by
  intro cs cs'
  refine ⟨fun j => ?_, fun j => rfl, fun j => rfl, by norm_num [cs]⟩
  have : (0:ℝ) ≤ 1 - (j : ℕ) := by
    have : (j : ℕ) ≤ 1 := by omega
    have : ((j : ℕ) : ℝ) ≤ 1 := by exact_mod_cast this
    linarith
  refine ⟨⟨?_, ?_, ?_, this⟩, ⟨?_, ?_, ?_, ?_⟩⟩ <;> simp only [cs, cs'] <;> positivity

end
end WTM
