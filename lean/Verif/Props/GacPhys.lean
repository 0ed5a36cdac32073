import Verif.Props.GacColumn

/-! Property C92: the dimensionless carbon column equations, read in physical units. -/
set_option autoImplicit false
namespace WTM
open BigOperators

variable {n r z : ℕ}

/-- A rate returned by `diffun`, per second: dimensionless time is minutes times `tconv`
(PSDM.py:1466-1470, 1631). -/
noncomputable def perSecond (G : GacCol) (cs : Fin n → GacComp) (rate : ℝ) : ℝ := rate * tconvOf G cs / 60

/-- Specification: content of the carbon per volume of bed water, umol/L, at loading `q` umol/g and pore
concentration `c` umol/L; `rhop` is in g/mL. -/
noncomputable def Spec.bedContent (G : GacCol) (q c : ℝ) : ℝ :=
  (1 - G.ebed) / G.ebed * (1000 * G.rhop * q + G.epor * c)

/-- Specification: bead area per volume of bed water, spheres of radius `rad`. -/
noncomputable def Spec.beadArea (G : GacCol) : ℝ := 3 * (1 - G.ebed) / (G.ebed * G.rad)

/-- C92. The partition number is the ratio of what the carbon holds to what the water holds at equilibrium
with the reference concentration. -/
theorem c92_partition (G : GacCol) (c : GacComp) :
    dgOf G c * cb0Of c.c0 =
      Spec.bedContent G (molarK c.K c.mw c.xn * cb0Of c.c0 ^ c.xn) (cb0Of c.c0) := by
  have h : cb0Of c.c0 ≠ 0 := by
    unfold cb0Of; split
    · norm_num
    · assumption
  unfold dgOf dgsOf dgpOf qeOf Spec.bedContent
  field_simp

/-- C92, full statement for the water: plug flow through the bed in the time `tau` and film transfer
`kf` times the bead area times the concentration difference. -/
def PhysLiquid : Prop :=
  ∀ (n r z : ℕ) (G : GacCol) (cs : Fin n → GacComp) (wr : Fin (r + 1) → ℝ)
    (br : Fin (r + 1) → Fin (r + 1) → ℝ) (az : Fin (z + 1) → Fin (z + 1) → ℝ)
    (cinfl foul fac : Fin n → ℝ) (y : GacState n r z) (i : Fin n) (w : Fin (z + 1)),
    0 < G.tau → 0 < G.ebed → G.ebed < 1 → 0 < G.rad → 0 < dgtOf G cs → w ≠ 0 →
    perSecond G cs (gacRhs (gacDim G cs wr br az) cinfl foul fac y i (Fin.last (r + 1)) w) =
      -(1 / G.tau) * ∑ w', az w w' * Spec.bulk cinfl y i w' -
      Spec.beadArea G * kfUsed G (cs i) *
        (Spec.bulk cinfl y i w - cporeAt (gacDim G cs wr br az) foul y i (Fin.last r) w)

/-- C92, what holds for the water: the film term carries the extra factor `dgt/(1 + dgt)`. Missing: that
factor, which the source introduced by writing `dgt` for `dg1`. -/
theorem c92_liquid_partial (G : GacCol) (cs : Fin n → GacComp) (wr : Fin (r + 1) → ℝ)
    (br : Fin (r + 1) → Fin (r + 1) → ℝ) (az : Fin (z + 1) → Fin (z + 1) → ℝ)
    (cinfl foul fac : Fin n → ℝ) (y : GacState n r z) (i : Fin n) {w : Fin (z + 1)}
    (ht : 0 < G.tau) (he : 0 < G.ebed) (hr : 0 < G.rad) (hd : 0 < dgtOf G cs) (h0 : w ≠ 0) :
    perSecond G cs (gacRhs (gacDim G cs wr br az) cinfl foul fac y i (Fin.last (r + 1)) w) =
      -(1 / G.tau) * ∑ w', az w w' * Spec.bulk cinfl y i w' -
      dgtOf G cs / (1 + dgtOf G cs) * (Spec.beadArea G * kfUsed G (cs i) *
        (Spec.bulk cinfl y i w - cporeAt (gacDim G cs wr br az) foul y i (Fin.last r) w)) := by
  have e : ∀ w' : Fin z, Spec.bulk cinfl y i w'.succ = y i (Fin.last (r + 1)) w'.succ := by
    intro w'; unfold Spec.bulk; rw [if_neg (Fin.succ_ne_zero w')]
  have e0 : Spec.bulk cinfl y i 0 = cinfl i := if_pos rfl
  have ew : Spec.bulk cinfl y i w = y i (Fin.last (r + 1)) w := if_neg h0
  rw [gacRhs_liq, gacLiq, if_neg h0, gacCbs, if_neg h0, Fin.sum_univ_succ, e0, ew]
  simp only [e]
  set A := ∑ w' : Fin z, az w w'.succ * y i (Fin.last (r + 1)) w'.succ with hA
  set B := y i (Fin.last (r + 1)) w - cporeAt (gacDim G cs wr br az) foul y i (Fin.last r) w with hB
  have h1 : 1 + dgtOf G cs ≠ 0 := by linarith
  show perSecond G cs (-(dg1Of G cs) * (az w 0 * cinfl i + A) - 3 * (B * stdvOf G cs i)) = _
  unfold perSecond tconvOf stdvOf dg1Of Spec.beadArea
  field_simp

/-- C92, what holds for the bead: film transfer into each bead is what the water loses, in the same units. -/
theorem c92_uptake (G : GacCol) (cs : Fin n → GacComp) {wr : Fin (r + 1) → ℝ} (hw : wr (Fin.last r) ≠ 0)
    (br : Fin (r + 1) → Fin (r + 1) → ℝ) (az : Fin (z + 1) → Fin (z + 1) → ℝ)
    (cinfl foul fac : Fin n → ℝ) (y : GacState n r z) (i : Fin n) (w : Fin (z + 1))
    (ht : 0 < G.tau) (he : 0 < G.ebed) (hr : 0 < G.rad) (hd : 0 < dgtOf G cs) (hi : dgOf G (cs i) ≠ 0) :
    dgOf G (cs i) * (3 * ∑ k, wr k *
      perSecond G cs (gacRhs (gacDim G cs wr br az) cinfl foul fac y i k.castSucc w)) =
      dgtOf G cs / (1 + dgtOf G cs) * (Spec.beadArea G * kfUsed G (cs i) *
        (Spec.bulk cinfl y i w - cporeAt (gacDim G cs wr br az) foul y i (Fin.last r) w)) := by
  have h := c49_bead (gacDim G cs wr br az) hw cinfl foul fac y i w
  have e : ∑ k, wr k * perSecond G cs (gacRhs (gacDim G cs wr br az) cinfl foul fac y i k.castSucc w) =
      (∑ k, (gacDim G cs wr br az).wr k *
        gacRhs (gacDim G cs wr br az) cinfl foul fac y i k.castSucc w) * (tconvOf G cs / 60) := by
    rw [Finset.sum_mul]
    refine Finset.sum_congr rfl (fun k _ => ?_)
    unfold perSecond
    simp only [gacDim]
    ring
  rw [e, h]
  set B := Spec.bulk cinfl y i w - cporeAt (gacDim G cs wr br az) foul y i (Fin.last r) w
  have h1 : 1 + dgtOf G cs ≠ 0 := by linarith
  show dgOf G (cs i) * (3 * (1 / dgOf G (cs i) * stdvOf G cs i * B * (tconvOf G cs / 60))) = _
  unfold tconvOf stdvOf dg1Of Spec.beadArea
  field_simp

/-- C92, full statement for the inside of a bead, initial tortuosity 1: `q` and `c` being the adsorbed and
dissolved parts of the loading, surface diffusion of `q` and pore diffusion of `c` through paths lengthened
by the tortuosity. -/
def PhysBead : Prop :=
  ∀ (n r z : ℕ) (G : GacCol) (cs : Fin n → GacComp) (wr : Fin (r + 1) → ℝ)
    (br : Fin (r + 1) → Fin (r + 1) → ℝ) (az : Fin (z + 1) → Fin (z + 1) → ℝ) (cinfl foul : Fin n → ℝ)
    (tort : ℝ) (y : GacState n r z) (i : Fin n) (k : Fin (r + 1)) (w : Fin (z + 1)) (q : Fin (r + 1) → ℝ),
    tortu0 G = 1 → 0 < G.tau → 0 < G.rad → 0 < dgtOf G cs → 0 < dgOf G (cs i) → 0 < dpUsed G (cs i) →
    dRatio G (cs i) ≠ 1 → 1e-130 ≤ dsUsed G (cs i) * dgsOf G (cs i) * G.tau / G.rad ^ 2 → k ≠ Fin.last r →
    (∀ l, dgOf G (cs i) * y i l.castSucc w =
      dgsOf G (cs i) * q l + dgpOf G * cporeAt (gacDim G cs wr br az) foul y i l w) →
    dgOf G (cs i) * perSecond G cs (gacRhs (gacDim G cs wr br az) cinfl foul
      (fun j => facAOf tort (dRatio G (cs j))) y i k.castSucc w) =
      (dsUsed G (cs i) * dgsOf G (cs i) * ∑ l, br k l * q l +
        dpUsed G (cs i) / tort * dgpOf G *
          ∑ l, br k l * cporeAt (gacDim G cs wr br az) foul y i l w) / G.rad ^ 2

/-- C92, what holds for the inside of a bead: the same with the extra factor `dgt/(1 + dgt)`, so that
content is still conserved. Missing: that factor. -/
theorem c92_bead_partial (G : GacCol) (cs : Fin n → GacComp) (wr : Fin (r + 1) → ℝ)
    (br : Fin (r + 1) → Fin (r + 1) → ℝ) (az : Fin (z + 1) → Fin (z + 1) → ℝ)
    (cinfl foul : Fin n → ℝ) (tort : ℝ) (y : GacState n r z) (i : Fin n) {k : Fin (r + 1)}
    (w : Fin (z + 1)) {q : Fin (r + 1) → ℝ} (ht0 : tortu0 G = 1)
    (ht : 0 < G.tau) (hr : 0 < G.rad) (hd : 0 < dgtOf G cs) (hi : 0 < dgOf G (cs i))
    (hdp : 0 < dpUsed G (cs i)) (hdr : dRatio G (cs i) ≠ 1)
    (hfl : 1e-130 ≤ dsUsed G (cs i) * dgsOf G (cs i) * G.tau / G.rad ^ 2) (hk : k ≠ Fin.last r)
    (hq : ∀ l, dgOf G (cs i) * y i l.castSucc w =
      dgsOf G (cs i) * q l + dgpOf G * cporeAt (gacDim G cs wr br az) foul y i l w) :
    dgOf G (cs i) * perSecond G cs (gacRhs (gacDim G cs wr br az) cinfl foul
      (fun j => facAOf tort (dRatio G (cs j))) y i k.castSucc w) =
      dgtOf G cs / (1 + dgtOf G cs) *
      ((dsUsed G (cs i) * dgsOf G (cs i) * ∑ l, br k l * q l +
        dpUsed G (cs i) / tort * dgpOf G *
          ∑ l, br k l * cporeAt (gacDim G cs wr br az) foul y i l w) / G.rad ^ 2) := by
  rw [gacRhs_bead, gacBead, if_neg hk, gacBB]
  set c := fun l => cporeAt (gacDim G cs wr br az) foul y i l w with hc
  have hs : (∑ l, (gacDim G cs wr br az).br k l * (gacDim G cs wr br az).bedp i * c l) *
      facAOf tort (dRatio G (cs i)) +
      ∑ l, (gacDim G cs wr br az).br k l * (gacDim G cs wr br az).beds i * y i l.castSucc w =
      ∑ l, br k l * (G.tau / G.rad ^ 2 * (dgtOf G cs / dgOf G (cs i)) *
        (dsUsed G (cs i) * dgsOf G (cs i) * q l + dpUsed G (cs i) / tort * dgpOf G * c l)) := by
    rw [Finset.sum_mul, ← Finset.sum_add_distrib]
    refine Finset.sum_congr rfl (fun l _ => ?_)
    have h := c88_partial ht0 (tort := tort) hdp hdr hfl (hq l)
    rw [ht0] at h
    show br k l * bedpOf G cs i * c l * facAOf tort (dRatio G (cs i)) +
      br k l * bedsOf G cs i * y i l.castSucc w = _
    linear_combination (br k l) * h
  show dgOf G (cs i) * perSecond G cs ((∑ l, (gacDim G cs wr br az).br k l *
    (gacDim G cs wr br az).bedp i * c l) * facAOf tort (dRatio G (cs i)) + _) = _
  rw [hs]
  have e : ∑ l, br k l * (G.tau / G.rad ^ 2 * (dgtOf G cs / dgOf G (cs i)) *
        (dsUsed G (cs i) * dgsOf G (cs i) * q l + dpUsed G (cs i) / tort * dgpOf G * c l)) =
      G.tau / G.rad ^ 2 * (dgtOf G cs / dgOf G (cs i)) * (dsUsed G (cs i) * dgsOf G (cs i) * ∑ l, br k l * q l +
        dpUsed G (cs i) / tort * dgpOf G * ∑ l, br k l * c l) := by
    rw [mul_add, Finset.mul_sum, Finset.mul_sum, Finset.mul_sum, Finset.mul_sum, ← Finset.sum_add_distrib]
    refine Finset.sum_congr rfl (fun l _ => ?_)
    ring
  rw [e]
  set X := dsUsed G (cs i) * dgsOf G (cs i) * ∑ l, br k l * q l +
        dpUsed G (cs i) / tort * dgpOf G * ∑ l, br k l * c l
  have h1 : 1 + dgtOf G cs ≠ 0 := by linarith
  unfold perSecond tconvOf dg1Of
  field_simp

/-- The factor is short of 1 by `1/(1 + dgt)`: small when the carbon holds much more than the water. -/
theorem c92_factor {dgt : ℝ} (h : 0 < dgt) : 1 - dgt / (1 + dgt) = 1 / (1 + dgt) ∧ dgt / (1 + dgt) < 1 ∧
    0 < dgt / (1 + dgt) := by
  have : (0:ℝ) < 1 + dgt := by linarith
  refine ⟨by field_simp; ring, (div_lt_one this).2 (by linarith), by positivity⟩

/-- The column of `demoCol` with one compound, `kf = 1`. -/
noncomputable def demoComp1 : GacComp := ⟨1, 1, 1, 1, 1, 1, 2, 1⟩

theorem demo1_dgt : dgtOf (demoCol true 1) (fun _ : Fin 1 => demoComp1) = 1001 := by
  simp [dgtOf, dgOf, dgsOf, dgpOf, demoCol, demoComp1, qeOf, molarK, cb0Of]; norm_num

/-- C92 is false of the code for the water. -/
theorem c92_false : ¬ PhysLiquid := by
  intro h
  let wr : Fin 1 → ℝ := fun _ => 1
  let br : Fin 1 → Fin 1 → ℝ := fun _ _ => 0
  let az : Fin 2 → Fin 2 → ℝ := fun _ _ => 0
  let y : GacState 1 0 1 := fun _ a _ => if a = 0 then 0 else 1
  have hd : 0 < dgtOf (demoCol true 1) (fun _ : Fin 1 => demoComp1) := by rw [demo1_dgt]; norm_num
  have h1 := h 1 0 1 (demoCol true 1) (fun _ => demoComp1) wr br az (fun _ => 1) (fun _ => 1) (fun _ => 1)
    y 0 1 (by norm_num [demoCol]) (by norm_num [demoCol]) (by norm_num [demoCol]) (by norm_num [demoCol])
    hd (by decide)
  have h2 := c92_liquid_partial (demoCol true 1) (fun _ => demoComp1) wr br az (fun _ => 1) (fun _ => 1)
    (fun _ => 1) y 0 (w := 1) (by norm_num [demoCol]) (by norm_num [demoCol]) (by norm_num [demoCol])
    hd (by decide)
  rw [h1, demo1_dgt] at h2
  have hc : cporeAt (gacDim (demoCol true 1) (fun _ => demoComp1) wr br az) (fun _ => 1) y 0 (Fin.last 0) 1 = 0 := by
    simp [cporeAt, cpore, y]
  have hb : Spec.bulk (fun _ : Fin 1 => (1:ℝ)) y 0 1 = 1 := by
    simp [Spec.bulk, y]
  have hk : kfUsed (demoCol true 1) demoComp1 = 1 := by simp [kfUsed, demoComp1]
  rw [hc, hb, hk] at h2
  norm_num [Spec.beadArea, demoCol] at h2

/-- C92 is false of the code for the bead too. -/
theorem c92_bead_false : ¬ PhysBead := by
  intro h
  let G := demoCol true 1
  let cs : Fin 1 → GacComp := fun _ => demoComp1
  let wr : Fin 2 → ℝ := fun _ => 1
  let br : Fin 2 → Fin 2 → ℝ := fun _ l => if l = 0 then 1 else 0
  let az : Fin 1 → Fin 1 → ℝ := fun _ _ => 0
  let y : GacState 1 1 0 := fun _ _ _ => 1
  have hdg : dgOf G demoComp1 = 1001 := by
    simp [dgOf, dgsOf, dgpOf, G, demoCol, demoComp1, qeOf, molarK, cb0Of]; norm_num
  have hdgs : dgsOf G demoComp1 = 1000 := by
    simp [dgsOf, G, demoCol, demoComp1, qeOf, molarK, cb0Of]; norm_num
  have hdgp : dgpOf G = 1 := by simp [dgpOf, G, demoCol]; norm_num
  have hdp : dpUsed G demoComp1 = 2 := by simp [dpUsed, demoComp1]
  have hds : dsUsed G demoComp1 = 1 := by simp [dsUsed, demoComp1, G, demoCol]
  have hdr : dRatio G demoComp1 = 1 / 2 := by rw [dRatio, hdp, hds]
  have hfl : 1e-130 ≤ dsUsed G demoComp1 * dgsOf G demoComp1 * G.tau / G.rad ^ 2 := by
    rw [hds, hdgs]; norm_num [G, demoCol]
  have hym : ymOf cs 0 = 1 := by simp [ymOf, cs, qeOf, molarK, demoComp1, cb0Of]
  have hc : ∀ l, cporeAt (gacDim G cs wr br az) (fun _ => 1) y 0 l 0 = 1 := by
    intro l
    have hx : (gacDim G cs wr br az).xn 0 = 1 := rfl
    have hy : (gacDim G cs wr br az).ym 0 = 1 := hym
    have : cpore (gacDim G cs wr br az).ym (gacDim G cs wr br az).xn (fun _ => 1)
        (fun j => y j l.castSucc 0) 0 = 1 := by
      simp only [cpore, Finset.univ_unique, Finset.sum_singleton, Fin.default_eq_zero, hx, hy, y]
      norm_num
    unfold cporeAt
    simp only [this]
    norm_num
  have hq : ∀ l : Fin 2, dgOf G (cs 0) * y 0 l.castSucc 0 = dgsOf G (cs 0) * (fun _ : Fin 2 => (1:ℝ)) l +
      dgpOf G * cporeAt (gacDim G cs wr br az) (fun _ => 1) y 0 l 0 := by
    intro l
    rw [hc]
    show dgOf G demoComp1 * 1 = dgsOf G demoComp1 * 1 + dgpOf G * 1
    rw [hdg, hdgs, hdgp]; norm_num
  have hd : 0 < dgtOf G cs := by rw [demo1_dgt]; norm_num
  have ht : tortu0 G = 1 := by simp [tortu0, G, demoCol]
  have p1 : 0 < G.tau := by norm_num [G, demoCol]
  have p2 : 0 < G.rad := by norm_num [G, demoCol]
  have p3 : 0 < dgOf G (cs 0) := by show 0 < dgOf G demoComp1; rw [hdg]; norm_num
  have p4 : 0 < dpUsed G (cs 0) := by show 0 < dpUsed G demoComp1; rw [hdp]; norm_num
  have p5 : dRatio G (cs 0) ≠ 1 := by show dRatio G demoComp1 ≠ 1; rw [hdr]; norm_num
  have p6 : (0 : Fin 2) ≠ Fin.last 1 := by decide
  have h1 := h 1 1 0 G cs wr br az (fun _ => 1) (fun _ => 1) 1 y 0 0 0 (fun _ => 1) ht p1 p2 hd p3 p4 p5 hfl p6 hq
  have h2 := c92_bead_partial G cs wr br az (fun _ => 1) (fun _ => 1) 1 y 0 0 ht p1 p2 hd p3 p4 p5 hfl p6 hq
  rw [h1] at h2
  have hdg' : dgtOf G cs = 1001 := demo1_dgt
  have hb : ∑ l, br 0 l * (1:ℝ) = 1 := by
    rw [show ∑ l, br 0 l * (1:ℝ) = br 0 0 * 1 + br 0 1 * 1 from Fin.sum_univ_two _]
    norm_num [br]
  simp only [hc, hdg', hb] at h2
  change (dsUsed G demoComp1 * dgsOf G demoComp1 * 1 + dpUsed G demoComp1 / 1 * dgpOf G * 1) /
      G.rad ^ 2 = 1001 / (1 + 1001) *
    ((dsUsed G demoComp1 * dgsOf G demoComp1 * 1 + dpUsed G demoComp1 / 1 * dgpOf G * 1) / G.rad ^ 2) at h2
  rw [hds, hdgs, hdp, hdgp] at h2
  norm_num [G, demoCol] at h2

end WTM
