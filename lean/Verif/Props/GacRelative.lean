import Mathlib.Tactic
import Verif.Props.GacPhys
import Verif.Props.GacUnique

/-! Properties C228 to C230: what the relative effluent of a carbon column depends on; the order of the compounds; compounds
that are not in the water. -/
set_option autoImplicit false
namespace WTM
open BigOperators Set

section
variable {n r z : ℕ}

/-! ### C228 -/

/-- Compounds that differ at most in capacity, molar mass and influent. -/
def Spec.SameTransfer (c c' : GacComp) : Prop :=
  c'.xn = c.xn ∧ c'.molVol = c.molVol ∧ c'.mtKf = c.mtKf ∧ c'.mtDp = c.mtDp ∧ c'.mtDs = c.mtDs

/-- First influent value in mass per volume, ug/L. -/
noncomputable def Spec.massConc (c : GacComp) : ℝ := c.c0 * c.mw

/-- Capacity over concentration at the first influent value, L/g: `K C^(1/n) / C`. -/
noncomputable def Spec.partition (c : GacComp) : ℝ := c.K * Spec.massConc c ^ c.xn / Spec.massConc c

theorem qe_mass {c : GacComp} (hm : 0 < c.mw) (h0 : 0 < c.c0) : qeOf c = Spec.partition c * c.c0 := by
  have hc : cb0Of c.c0 = c.c0 := if_neg h0.ne'
  have e : (1 / c.mw) ^ c.xn = 1 / c.mw ^ c.xn := by
    rw [Real.div_rpow zero_le_one hm.le, Real.one_rpow]
  have hp := Real.rpow_pos_of_pos hm c.xn
  unfold qeOf molarK Spec.partition Spec.massConc
  rw [hc, e, Real.mul_rpow h0.le hm.le]
  field_simp

theorem gacDim_ratio {G : GacCol} {cs cs' : Fin n → GacComp} {ka : ℝ} (hka : ka ≠ 0)
    (hs : ∀ i, Spec.SameTransfer (cs i) (cs' i)) (hq : ∀ i, qeOf (cs' i) = ka * qeOf (cs i))
    (hc : ∀ i, cb0Of (cs' i).c0 = ka * cb0Of (cs i).c0)
    (wr : Fin (r + 1) → ℝ) (br : Fin (r + 1) → Fin (r + 1) → ℝ) (az : Fin (z + 1) → Fin (z + 1) → ℝ) :
    gacDim G cs' wr br az = gacDim G cs wr br az ∧ tconvOf G cs' = tconvOf G cs := by
  have q1 : ∀ i, kfUsed G (cs' i) = kfUsed G (cs i) := by
    intro i
    obtain ⟨a, b, c, d, e⟩ := hs i
    simp only [kfUsed, b, c]
  have q2 : ∀ i, dpUsed G (cs' i) = dpUsed G (cs i) := by
    intro i
    obtain ⟨a, b, c, d, e⟩ := hs i
    simp only [dpUsed, b, d]
  have q3 : ∀ i, dsCorr G (cs' i) = dsCorr G (cs i) := by
    intro i
    obtain ⟨a, b, c, d, e⟩ := hs i
    have k1 : ∀ c : GacComp, dsCorr G c = G.epor * difl G.vw c.molVol * G.psdfr / (tortu0 G * 1e3 * G.rhop) *
        (cb0Of c.c0 / qeOf c) := by
      intro c
      unfold dsCorr qeOf
      rw [div_mul_div_comm]
      ring
    rw [k1, k1, hq, hc, b, mul_div_mul_left _ _ hka]
  have q4 : ∀ i, dsUsed G (cs' i) = dsUsed G (cs i) := by
    intro i
    obtain ⟨a, b, c, d, e⟩ := hs i
    simp only [dsUsed, e, q3]
  have q5 : ∀ i, dgsOf G (cs' i) = dgsOf G (cs i) := by
    intro i
    unfold dgsOf
    rw [hq, hc]
    rw [show G.rhop * (ka * qeOf (cs i)) * (1 - G.ebed) * 1000 = ka * (G.rhop * qeOf (cs i) * (1 - G.ebed) * 1000) by ring,
      show G.ebed * (ka * cb0Of (cs i).c0) = ka * (G.ebed * cb0Of (cs i).c0) by ring, mul_div_mul_left _ _ hka]
  have q6 : ∀ i, dgOf G (cs' i) = dgOf G (cs i) := by intro i; simp only [dgOf, q5]
  have q7 : dgtOf G cs' = dgtOf G cs := by simp only [dgtOf, q6]
  have q8 : ∀ i, dRatio G (cs' i) = dRatio G (cs i) := by intro i; simp only [dRatio, q2, q4]
  have q9 : ∀ i, edsOf G (cs' i) = edsOf G (cs i) := by intro i; simp only [edsOf, q4, q5]
  have q10 : ∀ i, edpOf G (cs' i) = edpOf G (cs i) := by intro i; simp only [edpOf, q2]
  constructor
  · unfold gacDim
    rw [GacDim.mk.injEq]
    refine ⟨?_, ?_, ?_, ?_, ?_, ?_, ?_, rfl, rfl, rfl⟩
    · funext i
      simp only [ymOf, hq]
      rw [← Finset.mul_sum, mul_div_mul_left _ _ hka]
    · funext i; exact (hs i).1
    · funext i; simp only [bedsOf, q6, q7, q8, q9, q10]
    · funext i; simp only [bedpOf, q6, q7, q8, q10]
    · funext i; simp only [stdvOf, q1, q7]
    · funext i; simp only [q6]
    · simp only [dg1Of, q7]
  · simp only [tconvOf, dg1Of, q7]

/-- C228. The equations and the time scale depend on capacities, molar masses and first influent values only by each compound's
capacity over concentration and by the mole ratios of the compounds. -/
theorem c228_groups {G : GacCol} {cs cs' : Fin n → GacComp} {ka : ℝ} (hka : 0 < ka)
    (hs : ∀ i, Spec.SameTransfer (cs i) (cs' i)) (hm : ∀ i, 0 < (cs i).mw) (hm' : ∀ i, 0 < (cs' i).mw) (h0 : ∀ i, 0 < (cs i).c0)
    (hp : ∀ i, Spec.partition (cs' i) = Spec.partition (cs i)) (hc : ∀ i, (cs' i).c0 = ka * (cs i).c0)
    (wr : Fin (r + 1) → ℝ) (br : Fin (r + 1) → Fin (r + 1) → ℝ) (az : Fin (z + 1) → Fin (z + 1) → ℝ) :
    gacDim G cs' wr br az = gacDim G cs wr br az ∧ tconvOf G cs' = tconvOf G cs := by
  have h0' : ∀ i, 0 < (cs' i).c0 := fun i => by rw [hc]; exact mul_pos hka (h0 i)
  refine gacDim_ratio hka.ne' hs (fun i => ?_) (fun i => ?_) wr br az
  · rw [qe_mass (hm' i) (h0' i), qe_mass (hm i) (h0 i), hp, hc]
    ring
  · have a : cb0Of (cs' i).c0 = (cs' i).c0 := if_neg (h0' i).ne'
    have b : cb0Of (cs i).c0 = (cs i).c0 := if_neg (h0 i).ne'
    rw [a, b, hc]

/-- C228. Units of concentration: influents `ka` times as large, with the Freundlich coefficients in the matching units,
`ka^(1-1/n)` times as large, give the same equations. -/
theorem c228_units {G : GacCol} (cs : Fin n → GacComp) {ka : ℝ} (hka : 0 < ka) (hm : ∀ i, 0 < (cs i).mw) (h0 : ∀ i, 0 < (cs i).c0)
    (wr : Fin (r + 1) → ℝ) (br : Fin (r + 1) → Fin (r + 1) → ℝ) (az : Fin (z + 1) → Fin (z + 1) → ℝ) :
    let cs' := fun i => { cs i with K := ka ^ (1 - (cs i).xn) * (cs i).K, c0 := ka * (cs i).c0 }
    gacDim G cs' wr br az = gacDim G cs wr br az ∧ tconvOf G cs' = tconvOf G cs := by
  intro cs'
  refine c228_groups (cs := cs) (cs' := cs') hka (fun i => ⟨rfl, rfl, rfl, rfl, rfl⟩) hm hm h0 (fun i => ?_) (fun i => rfl) wr br az
  have hM : 0 < Spec.massConc (cs i) := mul_pos (h0 i) (hm i)
  have e : Spec.massConc (cs' i) = ka * Spec.massConc (cs i) := by
    unfold Spec.massConc
    exact mul_assoc _ _ _
  unfold Spec.partition
  rw [e, Real.mul_rpow hka.le hM.le]
  show ka ^ (1 - (cs i).xn) * (cs i).K * (ka ^ (cs i).xn * Spec.massConc (cs i) ^ (cs i).xn) / (ka * Spec.massConc (cs i)) = _
  have k : ka ^ (1 - (cs i).xn) * ka ^ (cs i).xn = ka := by
    rw [← Real.rpow_add hka, sub_add_cancel, Real.rpow_one]
  rw [show ka ^ (1 - (cs i).xn) * (cs i).K * (ka ^ (cs i).xn * Spec.massConc (cs i) ^ (cs i).xn) =
    (ka ^ (1 - (cs i).xn) * ka ^ (cs i).xn) * ((cs i).K * Spec.massConc (cs i) ^ (cs i).xn) by ring, k,
    mul_div_mul_left _ _ hka.ne']

/-- C228. Molar masses `mu` times as large for all compounds, at the same mass concentrations, give the same equations. -/
theorem c228_molar {G : GacCol} (cs : Fin n → GacComp) {mu : ℝ} (hmu : 0 < mu) (hm : ∀ i, 0 < (cs i).mw) (h0 : ∀ i, 0 < (cs i).c0)
    (wr : Fin (r + 1) → ℝ) (br : Fin (r + 1) → Fin (r + 1) → ℝ) (az : Fin (z + 1) → Fin (z + 1) → ℝ) :
    let cs' := fun i => { cs i with mw := mu * (cs i).mw, c0 := (cs i).c0 / mu }
    gacDim G cs' wr br az = gacDim G cs wr br az ∧ tconvOf G cs' = tconvOf G cs := by
  intro cs'
  refine c228_groups (cs := cs) (cs' := cs') (ka := 1 / mu) (one_div_pos.2 hmu) (fun i => ⟨rfl, rfl, rfl, rfl, rfl⟩) hm
    (fun i => mul_pos hmu (hm i)) h0 (fun i => ?_) (fun i => ?_) wr br az
  · have e : Spec.massConc (cs' i) = Spec.massConc (cs i) := by
      show (cs i).c0 / mu * (mu * (cs i).mw) = (cs i).c0 * (cs i).mw
      field_simp
    unfold Spec.partition
    rw [e]
  · show (cs i).c0 / mu = 1 / mu * (cs i).c0
    ring

/-- C228. With one compound only the capacity over concentration counts, whatever its molar mass. -/
theorem c228_single {G : GacCol} {c c' : GacComp} (hs : Spec.SameTransfer c c') (hm : 0 < c.mw) (hm' : 0 < c'.mw) (h0 : 0 < c.c0)
    (h0' : 0 < c'.c0) (hp : c'.K * Spec.massConc c' ^ (c.xn - 1) = c.K * Spec.massConc c ^ (c.xn - 1))
    (wr : Fin (r + 1) → ℝ) (br : Fin (r + 1) → Fin (r + 1) → ℝ) (az : Fin (z + 1) → Fin (z + 1) → ℝ) :
    gacDim G (fun _ : Fin 1 => c') wr br az = gacDim G (fun _ : Fin 1 => c) wr br az ∧
      tconvOf G (fun _ : Fin 1 => c') = tconvOf G (fun _ : Fin 1 => c) := by
  have hM : 0 < Spec.massConc c := mul_pos h0 hm
  have hM' : 0 < Spec.massConc c' := mul_pos h0' hm'
  refine c228_groups (ka := c'.c0 / c.c0) (div_pos h0' h0) (fun _ => hs) (fun _ => hm) (fun _ => hm') (fun _ => h0) (fun _ => ?_)
    (fun _ => by field_simp) wr br az
  rw [Real.rpow_sub_one hM.ne', Real.rpow_sub_one hM'.ne'] at hp
  unfold Spec.partition
  rw [hs.1, mul_div_assoc, mul_div_assoc]
  exact hp

/-- C228. A single compound with exponent 1 has the same relative effluent at every influent concentration. -/
theorem c228_linear {G : GacCol} {c : GacComp} (hx : c.xn = 1) (hm : 0 < c.mw) (h0 : 0 < c.c0) {x : ℝ} (hx0 : 0 < x)
    (wr : Fin (r + 1) → ℝ) (br : Fin (r + 1) → Fin (r + 1) → ℝ) (az : Fin (z + 1) → Fin (z + 1) → ℝ) :
    gacDim G (fun _ : Fin 1 => { c with c0 := x }) wr br az = gacDim G (fun _ : Fin 1 => c) wr br az ∧
      tconvOf G (fun _ : Fin 1 => { c with c0 := x }) = tconvOf G (fun _ : Fin 1 => c) := by
  refine c228_single (c := c) (c' := { c with c0 := x }) ⟨rfl, rfl, rfl, rfl, rfl⟩ hm hm h0 hx0 ?_ wr br az
  rw [hx, sub_self, Real.rpow_zero, Real.rpow_zero]

/-- C228. Same equations, same relative influent: the reported effluents are in the ratio of the first influent values, at every
time. `M` and `M'` are the factors from the units of the tables to ug/L. -/
theorem c228_effluent {G : GacCol} {cs cs' : Fin n → GacComp} {wr : Fin (r + 1) → ℝ} {br : Fin (r + 1) → Fin (r + 1) → ℝ}
    {az : Fin (z + 1) → Fin (z + 1) → ℝ} (hdim : gacDim G cs' wr br az = gacDim G cs wr br az)
    (htc : tconvOf G cs' = tconvOf G cs) (hcs : ∀ i, (cs i).Ok) (hle : ∀ i, (cs i).xn ≤ 1) (h0 : ∀ i, 0 < (cs i).c0)
    (h0' : ∀ i, 0 < (cs' i).c0) {cinfl foul fac : ℝ → Fin n → ℝ} {T1 : ℝ} (h1 : ContinuousOn cinfl (Icc 0 T1))
    (h2 : ContinuousOn foul (Icc 0 T1)) (h3 : ContinuousOn fac (Icc 0 T1)) {y y' : ℝ → GacState n r z} (hst : y 0 = y' 0)
    (hy : Spec.Solves gacComp (fun t u => gacRhs (gacDim G cs wr br az) (cinfl t) (foul t) (fac t) u) 0 T1 y)
    (hy' : Spec.Solves gacComp (fun t u => gacRhs (gacDim G cs' wr br az) (cinfl t) (foul t) (fac t) u) 0 T1 y')
    {M M' : ℝ} (hM : 0 < M) (hM' : 0 < M') :
    ∀ t, 0 ≤ t * tconvOf G cs → t * tconvOf G cs ≤ T1 → ∀ i w,
      reported (cb0Of (cs' i).c0) (cs' i).mw M' (y' (t * tconvOf G cs') i (Fin.last (r + 1)) w) * (Spec.massConc (cs i) / M) =
      reported (cb0Of (cs i).c0) (cs i).mw M (y (t * tconvOf G cs) i (Fin.last (r + 1)) w) * (Spec.massConc (cs' i) / M') := by
  intro t ht0 ht1 i w
  rw [hdim] at hy'
  have e := c211_unique (gacDim G cs wr br az) (ym_pos hcs) (fun j => ⟨(hcs j).2.1, hle j⟩) h1 h2 h3 hy hy' hst _ ⟨ht0, ht1⟩
  rw [htc, e]
  have a : cb0Of (cs' i).c0 = (cs' i).c0 := if_neg (h0' i).ne'
  have b : cb0Of (cs i).c0 = (cs i).c0 := if_neg (h0 i).ne'
  unfold reported Spec.massConc
  rw [a, b]
  field_simp

/-- Two compounds, one with a steep isotherm, in concentrations a thousand times smaller: the hypotheses hold. -/
example : let cs : Fin 2 → GacComp := fun i => ⟨100 + i, 1 / (1 + i), 131, 90, 3, 0, 0, 0⟩
    (∀ i, 0 < (cs i).mw) ∧ (∀ i, 0 < (cs i).c0) ∧ ∀ i, (cs i).Ok := by
  intro cs
  refine ⟨fun i => ?_, fun i => ?_, fun i => ⟨?_, ?_, ?_, ?_⟩⟩ <;> simp only [cs] <;> positivity

/-! ### C229 -/

/-- The arrays for the compounds in another order. -/
def Spec.reorder (σ : Equiv.Perm (Fin n)) (D : GacDim n r z) : GacDim n r z :=
  { D with ym := D.ym ∘ σ, xn := D.xn ∘ σ, beds := D.beds ∘ σ, bedp := D.bedp ∘ σ, stdv := D.stdv ∘ σ, dgI := D.dgI ∘ σ }

theorem dgt_perm (G : GacCol) (cs : Fin n → GacComp) (σ : Equiv.Perm (Fin n)) : dgtOf G (cs ∘ σ) = dgtOf G cs := by
  unfold dgtOf
  exact Equiv.sum_comp σ (fun i => dgOf G (cs i))

theorem ym_perm (cs : Fin n → GacComp) (σ : Equiv.Perm (Fin n)) : ymOf (cs ∘ σ) = ymOf cs ∘ σ := by
  funext i
  unfold ymOf
  simp only [Function.comp_apply]
  rw [Equiv.sum_comp σ (fun i => qeOf (cs i))]

/-- C229. The arrays of `diffun` for the compounds in another order are those arrays in that order; the time scale is the same. -/
theorem c229_groups (G : GacCol) (cs : Fin n → GacComp) (σ : Equiv.Perm (Fin n)) (wr : Fin (r + 1) → ℝ)
    (br : Fin (r + 1) → Fin (r + 1) → ℝ) (az : Fin (z + 1) → Fin (z + 1) → ℝ) :
    gacDim G (cs ∘ σ) wr br az = Spec.reorder σ (gacDim G cs wr br az) ∧ tconvOf G (cs ∘ σ) = tconvOf G cs := by
  constructor
  · unfold gacDim Spec.reorder
    rw [GacDim.mk.injEq]
    refine ⟨ym_perm cs σ, rfl, ?_, ?_, ?_, rfl, ?_, rfl, rfl, rfl⟩
    · funext i; simp only [bedsOf, dgt_perm, Function.comp_apply]
    · funext i; simp only [bedpOf, dgt_perm, Function.comp_apply]
    · funext i; simp only [stdvOf, dgt_perm, Function.comp_apply]
    · simp only [dg1Of, dgt_perm]
  · simp only [tconvOf, dg1Of, dgt_perm]

theorem cpore_perm (ym xn foul y : Fin n → ℝ) (σ : Equiv.Perm (Fin n)) (i : Fin n) :
    cpore (ym ∘ σ) (xn ∘ σ) (foul ∘ σ) (y ∘ σ) i = cpore ym xn foul y (σ i) := by
  unfold cpore
  simp only [Function.comp_apply]
  rw [Equiv.sum_comp σ (fun j => if ym j * y j < 0 then 0 else ym j * y j),
    Equiv.sum_comp σ (fun j => 1 / xn j * if ym j * y j < 0 then 0 else ym j * y j)]

theorem cporeAt_perm (D : GacDim n r z) (foul : Fin n → ℝ) (y : GacState n r z) (σ : Equiv.Perm (Fin n)) (i : Fin n)
    (k : Fin (r + 1)) (w : Fin (z + 1)) :
    cporeAt (Spec.reorder σ D) (foul ∘ σ) (y ∘ σ) i k w = cporeAt D foul y (σ i) k w := by
  unfold cporeAt
  have := cpore_perm D.ym D.xn foul (fun j => y j k.castSucc w) σ i
  simp only
  rw [← this]
  rfl

/-- C229. `diffun` treats the compounds alike: given them in another order it returns the same rates in that order. -/
theorem c229_rates (D : GacDim n r z) (cinfl foul fac : Fin n → ℝ) (y : GacState n r z) (σ : Equiv.Perm (Fin n)) :
    gacRhs (Spec.reorder σ D) (cinfl ∘ σ) (foul ∘ σ) (fac ∘ σ) (y ∘ σ) = gacRhs D cinfl foul fac y ∘ σ := by
  have hb : ∀ i k w, gacBB (Spec.reorder σ D) (foul ∘ σ) (fac ∘ σ) (y ∘ σ) i k w = gacBB D foul fac y (σ i) k w := by
    intro i k w
    unfold gacBB
    simp only [cporeAt_perm]
    rfl
  have hc : ∀ i w, gacCbs (Spec.reorder σ D) (foul ∘ σ) (y ∘ σ) i w = gacCbs D foul y (σ i) w := by
    intro i w
    unfold gacCbs
    simp only [cporeAt_perm]
    rfl
  have hw : ∀ i w, gacWW (Spec.reorder σ D) (foul ∘ σ) (fac ∘ σ) (y ∘ σ) i w = gacWW D foul fac y (σ i) w := by
    intro i w
    unfold gacWW
    simp only [hb]
    rfl
  funext i a w
  refine Fin.lastCases ?_ (fun k => ?_) a
  · simp only [Function.comp_apply]
    rw [gacRhs_liq, gacRhs_liq]
    unfold gacLiq
    simp only [hc]
    rfl
  · simp only [Function.comp_apply]
    rw [gacRhs_bead, gacRhs_bead]
    unfold gacBead
    simp only [hc, hb, hw, cporeAt_perm]
    rfl

/-- C229. So the effluent of each compound does not depend on the order in which the compounds are listed. -/
theorem c229_effluent {G : GacCol} {cs : Fin n → GacComp} (σ : Equiv.Perm (Fin n)) {wr : Fin (r + 1) → ℝ}
    {br : Fin (r + 1) → Fin (r + 1) → ℝ} {az : Fin (z + 1) → Fin (z + 1) → ℝ} (hcs : ∀ i, (cs i).Ok) (hle : ∀ i, (cs i).xn ≤ 1)
    {cinfl foul fac : ℝ → Fin n → ℝ} {T1 : ℝ} (h1 : ContinuousOn cinfl (Icc 0 T1)) (h2 : ContinuousOn foul (Icc 0 T1))
    (h3 : ContinuousOn fac (Icc 0 T1)) {y y' : ℝ → GacState n r z} (hst : ∀ i, y' 0 i = y 0 (σ i))
    (hy : Spec.Solves gacComp (fun t u => gacRhs (gacDim G cs wr br az) (cinfl t) (foul t) (fac t) u) 0 T1 y)
    (hy' : Spec.Solves gacComp (fun t u => gacRhs (gacDim G (cs ∘ σ) wr br az) (cinfl t ∘ σ) (foul t ∘ σ) (fac t ∘ σ) u) 0 T1 y') :
    ∀ t, 0 ≤ t * tconvOf G cs → t * tconvOf G cs ≤ T1 → ∀ i, y' (t * tconvOf G (cs ∘ σ)) i = y (t * tconvOf G cs) (σ i) := by
  intro t ht0 ht1 i
  obtain ⟨d1, d2⟩ := c229_groups G cs σ wr br az
  rw [d2]
  have hz : Spec.Solves gacComp (fun t u => gacRhs (gacDim G (cs ∘ σ) wr br az) (cinfl t ∘ σ) (foul t ∘ σ) (fac t ∘ σ) u) 0 T1
      (fun t => y t ∘ σ) := by
    rw [d1]
    intro t ht a
    have := hy t ht (σ a.1, a.2.1, a.2.2)
    simp only [c229_rates]
    exact this
  have comp : ∀ {f : ℝ → Fin n → ℝ}, ContinuousOn f (Icc 0 T1) → ContinuousOn (fun t => f t ∘ σ) (Icc 0 T1) := by
    intro f hf
    rw [continuousOn_pi] at hf ⊢
    exact fun i => hf (σ i)
  have e := c211_unique (gacDim G (cs ∘ σ) wr br az) (ym_pos (fun i => hcs (σ i))) (fun j => ⟨(hcs (σ j)).2.1, hle (σ j)⟩) (comp h1)
    (comp h2) (comp h3) hy' hz (funext hst) _ ⟨ht0, ht1⟩
  exact congrFun e i

/-! ### C230 -/

/-- Compound 0 is neither in the water nor on the carbon. -/
def Spec.Absent (y : GacState (n + 1) r z) (cinfl : Fin (n + 1) → ℝ) : Prop := (∀ a w, y 0 a w = 0) ∧ cinfl 0 = 0

/-- C230, full statement: an absent compound has no influence on the others. Rates are per second, since the time scale of the
equations depends on the list of compounds. -/
def AbsentIgnored : Prop :=
  ∀ (n r z : ℕ) (G : GacCol) (cs : Fin (n + 1) → GacComp) (wr : Fin (r + 1) → ℝ) (br : Fin (r + 1) → Fin (r + 1) → ℝ)
    (az : Fin (z + 1) → Fin (z + 1) → ℝ) (cinfl foul fac : Fin (n + 1) → ℝ) (y : GacState (n + 1) r z) (i : Fin n)
    (a : Fin (r + 2)) (w : Fin (z + 1)), (∀ j, (cs j).Ok) → (∀ j, 0 < dgOf G (cs j)) → 0 < G.tau → 0 < G.ebed → G.ebed < 1 →
    0 < G.rad → Spec.Absent y cinfl →
    perSecond G cs (gacRhs (gacDim G cs wr br az) cinfl foul fac y i.succ a w) =
      perSecond G (cs ∘ Fin.succ) (gacRhs (gacDim G (cs ∘ Fin.succ) wr br az) (cinfl ∘ Fin.succ) (foul ∘ Fin.succ)
        (fac ∘ Fin.succ) (y ∘ Fin.succ) i a w)

theorem cpore_factor {ym xn foul y : Fin n → ℝ} {s : ℝ} (hs : 0 < s) (i : Fin n) :
    cpore (fun j => s * ym j) xn foul y i = cpore ym xn foul y i := by
  have hz : ∀ j, (if s * ym j * y j < 0 then 0 else s * ym j * y j) = s * (if ym j * y j < 0 then 0 else ym j * y j) := by
    intro j
    by_cases h : ym j * y j < 0
    · rw [if_pos h, if_pos (by rw [mul_assoc]; exact mul_neg_of_pos_of_neg hs h), mul_zero]
    · rw [if_neg h, if_neg (by rw [mul_assoc]; exact not_lt.2 (mul_nonneg hs.le (not_lt.1 h))), mul_assoc]
  have hpos : ∀ j, 0 ≤ (if ym j * y j < 0 then 0 else ym j * y j) := by
    intro j
    split
    · exact le_rfl
    · exact not_lt.1 ‹_›
  unfold cpore
  simp only [hz]
  have e1 : ∑ j, s * (if ym j * y j < 0 then 0 else ym j * y j) = s * ∑ j, (if ym j * y j < 0 then 0 else ym j * y j) :=
    (Finset.mul_sum _ _ _).symm
  have e2 : ∑ j, 1 / xn j * (s * (if ym j * y j < 0 then 0 else ym j * y j)) =
      s * ∑ j, 1 / xn j * (if ym j * y j < 0 then 0 else ym j * y j) := by
    rw [Finset.mul_sum]
    exact Finset.sum_congr rfl fun j _ => by ring
  rw [e1, e2]
  have hS : 0 ≤ ∑ j, (if ym j * y j < 0 then 0 else ym j * y j) := Finset.sum_nonneg fun j _ => hpos j
  rcases hS.eq_or_lt with h0 | h0
  · have hall : ∀ j, (if ym j * y j < 0 then 0 else ym j * y j) = 0 := fun j =>
      (Finset.sum_eq_zero_iff_of_nonneg fun j _ => hpos j).1 h0.symm j (Finset.mem_univ j)
    simp only [hall, mul_zero, Finset.sum_const_zero]
  · generalize (∑ j, if ym j * y j < 0 then 0 else ym j * y j) = A at h0
    generalize (∑ j, 1 / xn j * if ym j * y j < 0 then 0 else ym j * y j) = B
    have hsA : 0 < s * A := mul_pos hs h0
    have q : xn i / (s * ym i) * (s * B) = xn i / ym i * B := by
      by_cases hy : ym i = 0
      · simp [hy]
      · field_simp
    rw [if_neg hsA.ne', if_neg h0.ne', q, if_neg (not_le.2 hsA), if_neg (not_le.2 h0), mul_div_mul_left _ _ hs.ne']
    have c1 : (s * B ≤ 0) ↔ B ≤ 0 := by
      constructor
      · intro h; by_contra hc; exact absurd h (not_le.2 (mul_pos hs (not_le.1 hc)))
      · intro h; exact mul_nonpos_of_nonneg_of_nonpos hs.le h
    simp only [c1, not_le.2 hsA, not_le.2 h0]

theorem cpore_absent {ym xn foul y : Fin (n + 1) → ℝ} (h0 : y 0 = 0) (i : Fin n) :
    cpore ym xn foul y i.succ = cpore (ym ∘ Fin.succ) (xn ∘ Fin.succ) (foul ∘ Fin.succ) (y ∘ Fin.succ) i := by
  unfold cpore
  simp only [Fin.sum_univ_succ, h0, mul_zero, lt_irrefl, if_false, zero_add, Function.comp_apply]

theorem cporeAt_absent {G : GacCol} {cs : Fin (n + 1) → GacComp} (hcs : ∀ j, (cs j).Ok) (wr : Fin (r + 1) → ℝ)
    (br : Fin (r + 1) → Fin (r + 1) → ℝ) (az : Fin (z + 1) → Fin (z + 1) → ℝ) (foul : Fin (n + 1) → ℝ) {y : GacState (n + 1) r z}
    (h0 : ∀ a w, y 0 a w = 0) (i : Fin n) (k : Fin (r + 1)) (w : Fin (z + 1)) :
    cporeAt (gacDim G cs wr br az) foul y i.succ k w =
      cporeAt (gacDim G (cs ∘ Fin.succ) wr br az) (foul ∘ Fin.succ) (y ∘ Fin.succ) i k w := by
  have : Nonempty (Fin n) := ⟨i⟩
  have hS : 0 < ∑ j : Fin n, qeOf (cs j.succ) := Finset.sum_pos (fun j _ => qe_pos (hcs _)) Finset.univ_nonempty
  have hS' : 0 < ∑ j, qeOf (cs j) := Finset.sum_pos (fun j _ => qe_pos (hcs _)) Finset.univ_nonempty
  have e : ymOf cs ∘ Fin.succ = fun j => (∑ j : Fin n, qeOf (cs j.succ)) / (∑ j, qeOf (cs j)) * ymOf (cs ∘ Fin.succ) j := by
    funext j
    unfold ymOf
    simp only [Function.comp_apply]
    field_simp
  unfold cporeAt
  simp only
  rw [cpore_absent (y := fun j => y j k.castSucc w) (h0 _ _)]
  show (if k = Fin.last r ∧ cpore (ymOf cs ∘ Fin.succ) _ _ _ i < 0 then 0 else cpore (ymOf cs ∘ Fin.succ) _ _ _ i) = _
  rw [e, cpore_factor (div_pos hS hS')]
  rfl

/-- The factor by which the kinetics of the others change, from the partition numbers without and with the absent compound. -/
noncomputable def Spec.absentFactor (d d' : ℝ) : ℝ := (d' / (1 + d')) / (d / (1 + d))

/-- C230, what holds: the absent compound stays absent; inside the beads all rates of the others are those without it times one
factor; in the water the film transfer is changed by the same factor and the flow is not; the factor is at least 1 and less than
`1 + 1/dgt`. Missing: the factor, that of C92, which depends on the list of compounds. -/
theorem c230_partial {G : GacCol} {cs : Fin (n + 1) → GacComp} (hcs : ∀ j, (cs j).Ok) (hdg : ∀ j, 0 < dgOf G (cs j))
    (ht : 0 < G.tau) (he : 0 < G.ebed) (hr : 0 < G.rad) (wr : Fin (r + 1) → ℝ) (br : Fin (r + 1) → Fin (r + 1) → ℝ)
    (az : Fin (z + 1) → Fin (z + 1) → ℝ) {cinfl : Fin (n + 1) → ℝ} (foul fac : Fin (n + 1) → ℝ) {y : GacState (n + 1) r z}
    (hab : Spec.Absent y cinfl) (i : Fin n) :
    let f := Spec.absentFactor (dgtOf G (cs ∘ Fin.succ)) (dgtOf G cs)
    let rate' := fun a w => perSecond G cs (gacRhs (gacDim G cs wr br az) cinfl foul fac y i.succ a w)
    let rate := fun a w => perSecond G (cs ∘ Fin.succ) (gacRhs (gacDim G (cs ∘ Fin.succ) wr br az) (cinfl ∘ Fin.succ)
      (foul ∘ Fin.succ) (fac ∘ Fin.succ) (y ∘ Fin.succ) i a w)
    (∀ a w, gacRhs (gacDim G cs wr br az) cinfl foul fac y 0 a w = 0) ∧
    (∀ k w, rate' (Fin.castSucc k) w = f * rate (Fin.castSucc k) w) ∧
    rate' (Fin.last (r + 1)) 0 = rate (Fin.last (r + 1)) 0 ∧
    (∀ w, w ≠ 0 → ∃ flow film, rate (Fin.last (r + 1)) w = flow - film ∧ rate' (Fin.last (r + 1)) w = flow - f * film ∧
      flow = -(1 / G.tau) * ∑ w', az w w' * Spec.bulk cinfl y i.succ w') ∧
    1 ≤ f ∧ f < 1 + 1 / dgtOf G (cs ∘ Fin.succ) := by
  intro f rate' rate
  obtain ⟨hy0, hc0⟩ := hab
  have : Nonempty (Fin n) := ⟨i⟩
  have hd : 0 < dgtOf G (cs ∘ Fin.succ) := Finset.sum_pos (fun j _ => hdg _) Finset.univ_nonempty
  have hdd : dgtOf G cs = dgOf G (cs 0) + dgtOf G (cs ∘ Fin.succ) := by
    unfold dgtOf
    rw [Fin.sum_univ_succ]
    rfl
  have hd' : 0 < dgtOf G cs := by rw [hdd]; exact add_pos (hdg 0) hd
  have hcp : ∀ k w, cporeAt (gacDim G cs wr br az) foul y i.succ k w =
      cporeAt (gacDim G (cs ∘ Fin.succ) wr br az) (foul ∘ Fin.succ) (y ∘ Fin.succ) i k w :=
    cporeAt_absent hcs wr br az foul hy0 i
  have hcp0 : ∀ k w, cporeAt (gacDim G cs wr br az) foul y 0 k w = 0 := by
    intro k w
    have : cpore (ymOf cs) (fun i => (cs i).xn) foul (fun j => y j k.castSucc w) 0 = 0 := by
      unfold cpore
      simp [hy0]
    unfold cporeAt
    show (if k = Fin.last r ∧ cpore (ymOf cs) (fun i => (cs i).xn) foul (fun j => y j k.castSucc w) 0 < 0 then 0 else
      cpore (ymOf cs) (fun i => (cs i).xn) foul (fun j => y j k.castSucc w) 0) = 0
    rw [this]
    simp
  set ρ := dgtOf G cs / dgtOf G (cs ∘ Fin.succ) with hρ
  have hst : (gacDim G cs wr br az).stdv i.succ = ρ * (gacDim G (cs ∘ Fin.succ) wr br az).stdv i := by
    show stdvOf G cs i.succ = ρ * stdvOf G (cs ∘ Fin.succ) i
    unfold stdvOf
    rw [hρ]
    simp only [Function.comp_apply]
    field_simp
  have hbs : (gacDim G cs wr br az).beds i.succ = ρ * (gacDim G (cs ∘ Fin.succ) wr br az).beds i := by
    show bedsOf G cs i.succ = ρ * bedsOf G (cs ∘ Fin.succ) i
    unfold bedsOf
    rw [hρ]
    simp only [Function.comp_apply]
    field_simp
  have hbp : (gacDim G cs wr br az).bedp i.succ = ρ * (gacDim G (cs ∘ Fin.succ) wr br az).bedp i := by
    show bedpOf G cs i.succ = ρ * bedpOf G (cs ∘ Fin.succ) i
    unfold bedpOf
    rw [hρ]
    simp only [Function.comp_apply]
    field_simp
  have hbb : ∀ k w, gacBB (gacDim G cs wr br az) foul fac y i.succ k w =
      ρ * gacBB (gacDim G (cs ∘ Fin.succ) wr br az) (foul ∘ Fin.succ) (fac ∘ Fin.succ) (y ∘ Fin.succ) i k w := by
    intro k w
    unfold gacBB
    simp only [hcp, hbs, hbp]
    rw [mul_add, Finset.mul_sum, ← mul_assoc, Finset.mul_sum]
    congr 1
    · congr 1
      refine Finset.sum_congr rfl fun l _ => ?_
      show br k l * _ * _ = ρ * (br k l * _ * _)
      ring
    · refine Finset.sum_congr rfl fun l _ => ?_
      show br k l * _ * _ = ρ * (br k l * _ * _)
      simp only [Function.comp_apply]
      ring
  have hww : ∀ w, gacWW (gacDim G cs wr br az) foul fac y i.succ w =
      ρ * gacWW (gacDim G (cs ∘ Fin.succ) wr br az) (foul ∘ Fin.succ) (fac ∘ Fin.succ) (y ∘ Fin.succ) i w := by
    intro w
    unfold gacWW
    simp only [hbb]
    rw [Finset.mul_sum]
    refine Finset.sum_congr rfl fun l _ => ?_
    show wr _ * _ = ρ * (wr _ * _)
    ring
  have hcb : ∀ w, gacCbs (gacDim G cs wr br az) foul y i.succ w =
      ρ * gacCbs (gacDim G (cs ∘ Fin.succ) wr br az) (foul ∘ Fin.succ) (y ∘ Fin.succ) i w := by
    intro w
    unfold gacCbs
    simp only [hcp, hst]
    split
    · simp
    · simp only [Function.comp_apply]
      ring
  have hf : f = ρ * (tconvOf G cs / tconvOf G (cs ∘ Fin.succ)) := by
    have a : 1 + dgtOf G cs ≠ 0 := by positivity
    have b : 1 + dgtOf G (cs ∘ Fin.succ) ≠ 0 := by positivity
    show Spec.absentFactor _ _ = _
    unfold Spec.absentFactor tconvOf dg1Of
    rw [hρ]
    field_simp
  have htc : tconvOf G (cs ∘ Fin.succ) ≠ 0 := by
    have b : 0 < 1 + dgtOf G (cs ∘ Fin.succ) := by positivity
    unfold tconvOf dg1Of
    positivity
  refine ⟨?_, ?_, ?_, ?_, ?_, ?_⟩
  · intro a w
    have hbb0 : ∀ k w, gacBB (gacDim G cs wr br az) foul fac y 0 k w = 0 := by
      intro k w
      unfold gacBB
      simp [hcp0, hy0]
    refine Fin.lastCases ?_ (fun k => ?_) a
    · rw [gacRhs_liq]
      unfold gacLiq gacCbs
      simp [hcp0, hy0, hc0]
    · rw [gacRhs_bead]
      unfold gacBead gacCbs gacWW
      simp [hcp0, hy0, hc0, hbb0]
  · intro k w
    have key : gacBead (gacDim G cs wr br az) cinfl foul fac y i.succ k w =
        ρ * gacBead (gacDim G (cs ∘ Fin.succ) wr br az) (cinfl ∘ Fin.succ) (foul ∘ Fin.succ) (fac ∘ Fin.succ) (y ∘ Fin.succ) i k w := by
      have hI : (gacDim G cs wr br az).dgI i.succ = (gacDim G (cs ∘ Fin.succ) wr br az).dgI i := rfl
      unfold gacBead
      simp only [hcp, hbb, hww, hcb, hst, hI]
      split
      · split
        · show _ / wr _ = ρ * (_ / wr _)
          simp only [Function.comp_apply]
          ring
        · show _ / wr _ = ρ * (_ / wr _)
          ring
      · rfl
    show perSecond G cs (gacRhs _ _ _ _ _ _ _ _) = f * perSecond G _ (gacRhs _ _ _ _ _ _ _ _)
    rw [gacRhs_bead, gacRhs_bead, key, hf]
    unfold perSecond
    field_simp
  · show perSecond G cs (gacRhs _ _ _ _ _ _ _ _) = perSecond G _ (gacRhs _ _ _ _ _ _ _ _)
    rw [gacRhs_liq, gacRhs_liq]
    unfold gacLiq perSecond
    simp
  · intro w hw
    have a := c92_liquid_partial G cs wr br az cinfl foul fac y i.succ ht he hr hd' hw
    have b := c92_liquid_partial G (cs ∘ Fin.succ) wr br az (cinfl ∘ Fin.succ) (foul ∘ Fin.succ) (fac ∘ Fin.succ) (y ∘ Fin.succ) i
      ht he hr hd hw
    refine ⟨_, _, b, ?_, rfl⟩
    show perSecond G cs (gacRhs _ _ _ _ _ _ _ _) = _
    rw [a, hcp]
    congr 1
    show dgtOf G cs / (1 + dgtOf G cs) * (_ * kfUsed G (cs i.succ) * (Spec.bulk cinfl y i.succ w - _)) =
      Spec.absentFactor (dgtOf G (cs ∘ Fin.succ)) (dgtOf G cs) *
        (dgtOf G (cs ∘ Fin.succ) / (1 + dgtOf G (cs ∘ Fin.succ)) * (_ * kfUsed G (cs i.succ) * (Spec.bulk cinfl y i.succ w - _)))
    have a : 1 + dgtOf G cs ≠ 0 := by positivity
    have b : 1 + dgtOf G (cs ∘ Fin.succ) ≠ 0 := by positivity
    unfold Spec.absentFactor
    field_simp
  · show 1 ≤ Spec.absentFactor _ _
    unfold Spec.absentFactor
    rw [one_le_div (by positivity), div_le_div_iff₀ (by positivity) (by positivity), hdd]
    have := (hdg 0).le
    nlinarith
  · show Spec.absentFactor _ _ < _
    unfold Spec.absentFactor
    rw [div_lt_iff₀ (by positivity)]
    have e : (1 + 1 / dgtOf G (cs ∘ Fin.succ)) * (dgtOf G (cs ∘ Fin.succ) / (1 + dgtOf G (cs ∘ Fin.succ))) = 1 := by
      have b : 1 + dgtOf G (cs ∘ Fin.succ) ≠ 0 := by positivity
      field_simp
      ring
    rw [e, div_lt_one (by positivity)]
    linarith

/-- C230 is false of the code: a second compound in the list, with nothing of it in the water or on the carbon, changes the film
transfer of the first. -/
theorem c230_false : ¬ AbsentIgnored := by
  intro h
  let cs : Fin 2 → GacComp := fun _ => demoComp1
  let G := demoCol true 1
  let az : Fin 2 → Fin 2 → ℝ := fun _ _ => 0
  let y : GacState 2 0 1 := fun i a _ => if i = 0 then 0 else if a = 0 then 0 else 1
  have hok : ∀ j, (cs j).Ok := fun j => ⟨one_pos, one_pos, one_pos, zero_le_one⟩
  have hdg : ∀ j, dgOf G (cs j) = 1001 := by
    intro j
    have := demo1_dgt
    rw [dgtOf, Finset.univ_unique, Finset.sum_singleton] at this
    exact this
  have hdg' : ∀ j, 0 < dgOf G (cs j) := fun j => by rw [hdg j]; norm_num
  have hG : 0 < G.tau ∧ 0 < G.ebed ∧ G.ebed < 1 ∧ 0 < G.rad := by
    refine ⟨?_, ?_, ?_, ?_⟩ <;> norm_num [G, demoCol]
  have hab : Spec.Absent y (fun _ => 0) := ⟨fun a w => by simp [y], rfl⟩
  have d2 : dgtOf G cs = 2002 := by
    rw [dgtOf, Fin.sum_univ_two, hdg 0]; norm_num
  have d1 : dgtOf G (cs ∘ Fin.succ) = 1001 := demo1_dgt
  have h1 := h 1 0 1 G cs (fun _ => 1) (fun _ _ => 0) az (fun _ => 0) (fun _ => 1) (fun _ => 1) y 0 (Fin.last 1) 1 hok hdg' hG.1
    hG.2.1 hG.2.2.1 hG.2.2.2 hab
  have b1 := c92_liquid_partial G cs (fun _ : Fin 1 => 1) (fun _ _ => 0) az (fun _ => 0) (fun _ => 1) (fun _ => 1) y 1 (w := 1) hG.1
    hG.2.1 hG.2.2.2 (by rw [d2]; norm_num) (by decide)
  have b2 := c92_liquid_partial G (cs ∘ Fin.succ) (fun _ : Fin 1 => 1) (fun _ _ => 0) az ((fun _ => 0) ∘ Fin.succ)
    ((fun _ => 1) ∘ Fin.succ) ((fun _ => 1) ∘ Fin.succ) (y ∘ Fin.succ) 0 (w := 1) hG.1 hG.2.1 hG.2.2.2 (by rw [d1]; norm_num)
    (by decide)
  have h1' := b1.symm.trans (h1.trans b2)
  have hc1 : cporeAt (gacDim G cs (fun _ : Fin 1 => 1) (fun _ _ => 0) az) (fun _ => 1) y 1 (Fin.last 0) 1 = 0 := by
    simp [cporeAt, cpore, y]
  have hc2 : cporeAt (gacDim G (cs ∘ Fin.succ) (fun _ : Fin 1 => 1) (fun _ _ => 0) az) ((fun _ => 1) ∘ Fin.succ) (y ∘ Fin.succ) 0
      (Fin.last 0) 1 = 0 := by
    simp [cporeAt, cpore, y]
  have hk : kfUsed G demoComp1 = 1 := by simp [kfUsed, demoComp1]
  have hb1 : Spec.bulk (fun _ : Fin 2 => (0:ℝ)) y 1 1 = 1 := by simp [Spec.bulk, y]
  have hb2 : Spec.bulk ((fun _ : Fin 2 => (0:ℝ)) ∘ Fin.succ) (y ∘ Fin.succ) 0 1 = 1 := by simp [Spec.bulk, y]
  rw [hc1, hc2, hb1, hb2, d1, d2] at h1'
  have k1 : kfUsed G (cs 1) = 1 := hk
  have k2 : kfUsed G ((cs ∘ Fin.succ) 0) = 1 := hk
  rw [k1, k2] at h1'
  norm_num [Spec.beadArea, G, demoCol, az] at h1'

end
end WTM
