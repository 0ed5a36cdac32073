import Mathlib.Tactic
import Verif.Model.GacSetup
import Verif.Model.Extra
import Verif.Props.GacUnique

/-! Property C219: a small column designed by `calc_RSSCT_specs` behaves in `run_psdm` as the large one does. -/
set_option autoImplicit false
namespace WTM
open BigOperators Set

section
variable {n r z : ℕ}

/-- Columns whose grains are `lam` times as large, with `th` times the contact time, diffusivities `lam^2/th` and film coefficients
`f` times as large: only the Stanton numbers and the time scale differ. -/
theorem gacDim_scale {G G' : GacCol} {cs cs' : Fin n → GacComp} {lam th f : ℝ} (hl : lam ≠ 0) (ht : th ≠ 0)
    (hG : G' = { G with rad := lam * G.rad, tau := th * G.tau, re := G'.re })
    (hc : ∀ i, (cs' i).K = (cs i).K ∧ (cs' i).xn = (cs i).xn ∧ (cs' i).mw = (cs i).mw ∧ (cs' i).c0 = (cs i).c0)
    (hkf : ∀ i, kfUsed G' (cs' i) = f * kfUsed G (cs i))
    (hdp : ∀ i, dpUsed G' (cs' i) = lam ^ 2 / th * dpUsed G (cs i))
    (hds : ∀ i, dsUsed G' (cs' i) = lam ^ 2 / th * dsUsed G (cs i))
    (wr : Fin (r + 1) → ℝ) (br : Fin (r + 1) → Fin (r + 1) → ℝ) (az : Fin (z + 1) → Fin (z + 1) → ℝ) :
    gacDim G' cs' wr br az = { gacDim G cs wr br az with stdv := fun i => f * th / lam * stdvOf G cs i } ∧
      tconvOf G' cs' = tconvOf G cs / th := by
  have e1 : G'.rad = lam * G.rad := by rw [hG]
  have e2 : G'.tau = th * G.tau := by rw [hG]
  have e3 : G'.ebed = G.ebed := by rw [hG]
  have e4 : G'.epor = G.epor := by rw [hG]
  have e5 : G'.rhop = G.rhop := by rw [hG]
  have e6 : tortu0 G' = tortu0 G := by rw [hG]; rfl
  have q1 : ∀ i, qeOf (cs' i) = qeOf (cs i) := by
    intro i
    obtain ⟨a, b, c, d⟩ := hc i
    simp only [qeOf, a, b, c, d]
  have q2 : ∀ i, dgsOf G' (cs' i) = dgsOf G (cs i) := by
    intro i
    simp only [dgsOf, q1, e3, e5, (hc i).2.2.2]
  have q3 : dgpOf G' = dgpOf G := by simp only [dgpOf, e3, e4]
  have q4 : ∀ i, dgOf G' (cs' i) = dgOf G (cs i) := by intro i; simp only [dgOf, q2, q3]
  have q5 : dgtOf G' cs' = dgtOf G cs := by simp only [dgtOf, q4]
  have hth : lam ^ 2 / th ≠ 0 := div_ne_zero (pow_ne_zero _ hl) ht
  have q6 : ∀ i, dRatio G' (cs' i) = dRatio G (cs i) := by
    intro i
    simp only [dRatio, hdp, hds]
    rw [mul_div_mul_left _ _ hth]
  have key : ∀ x : ℝ, lam ^ 2 / th * x * (th * G.tau) / (lam * G.rad) ^ 2 = x * G.tau / G.rad ^ 2 := by
    intro x
    by_cases hr : G.rad = 0
    · simp [hr]
    · field_simp
  have q7 : ∀ i, edsOf G' (cs' i) = edsOf G (cs i) := by
    intro i
    have : lam ^ 2 / th * dsUsed G (cs i) * dgsOf G (cs i) * (th * G.tau) / (lam * G.rad) ^ 2 =
        dsUsed G (cs i) * dgsOf G (cs i) * G.tau / G.rad ^ 2 := by
      rw [mul_assoc (lam ^ 2 / th)]
      exact key _
    simp only [edsOf, hds, q2, e1, e2, this]
  have q8 : ∀ i, edpOf G' (cs' i) = edpOf G (cs i) := by
    intro i
    simp only [edpOf, hdp, q3, e1, e2, e6]
    rw [mul_assoc (lam ^ 2 / th), mul_assoc (lam ^ 2 / th)]
    exact key _
  have q9 : ∀ i, stdvOf G' cs' i = f * th / lam * stdvOf G cs i := by
    intro i
    simp only [stdvOf, hkf, q5, e1, e2, e3]
    by_cases hr : G.rad = 0
    · simp [hr]
    · by_cases hb : G.ebed = 0
      · simp [hb]
      · field_simp
  constructor
  · unfold gacDim
    rw [GacDim.mk.injEq]
    refine ⟨?_, ?_, ?_, ?_, ?_, ?_, ?_, rfl, rfl, rfl⟩
    · funext i; simp only [ymOf, q1]
    · funext i; exact (hc i).2.1
    · funext i; simp only [bedsOf, q4, q5, q6, q7, q8]
    · funext i; simp only [bedpOf, q4, q5, q6, q8]
    · funext i; exact q9 i
    · funext i; simp only [q4]
    · simp only [dg1Of, q5]
  · simp only [tconvOf, dg1Of, q5, e2]
    rw [div_div]
    congr 1
    ring

/-- C219. With film coefficients `lam/th` times as large too, the equations are the same. Only the time scale differs. -/
theorem c219_groups {G G' : GacCol} {cs cs' : Fin n → GacComp} {lam th : ℝ} (hl : lam ≠ 0) (ht : th ≠ 0)
    (hG : G' = { G with rad := lam * G.rad, tau := th * G.tau, re := G'.re })
    (hc : ∀ i, (cs' i).K = (cs i).K ∧ (cs' i).xn = (cs i).xn ∧ (cs' i).mw = (cs i).mw ∧ (cs' i).c0 = (cs i).c0)
    (hkf : ∀ i, kfUsed G' (cs' i) = lam / th * kfUsed G (cs i))
    (hdp : ∀ i, dpUsed G' (cs' i) = lam ^ 2 / th * dpUsed G (cs i))
    (hds : ∀ i, dsUsed G' (cs' i) = lam ^ 2 / th * dsUsed G (cs i))
    (wr : Fin (r + 1) → ℝ) (br : Fin (r + 1) → Fin (r + 1) → ℝ) (az : Fin (z + 1) → Fin (z + 1) → ℝ) :
    gacDim G' cs' wr br az = gacDim G cs wr br az ∧ tconvOf G' cs' = tconvOf G cs / th := by
  obtain ⟨h1, h2⟩ := gacDim_scale hl ht hG hc hkf hdp hds wr br az
  refine ⟨h1.trans ?_, h2⟩
  have : lam / th * th / lam = 1 := by field_simp
  simp only [this, one_mul]
  rfl

/-! ### The design -/

/-- The large column as the design tool is told about it: lengths in cm, flow in ml/min, grain diameter in mm (the simulation has
the radius in cm), carbon density of the bed, duration in days. -/
noncomputable def Spec.largeOf (g : Geom) (T : ℝ) : LargeArgs :=
  { L := some (.num g.L)
    diam := some (.num g.diam)
    flrt := some (.num g.flrt)
    partDiam := some (.num (20 * g.rad))
    mass := some (.num g.wt)
    time := some (.num T)
    density := some (.num (g.wt / (Real.pi / 4 * g.diam ^ 2 * g.L))) }

/-- The simulated small column: what the design says, with the same carbon. -/
noncomputable def Spec.smallOf (g : Geom) (l b m q d : ℝ) : Geom :=
  { g with L := l, diam := b, wt := m, flrt := q, rad := d / 20 }

/-- C219. Porosity and Reynolds number of the small column are those of the large one, its contact time is the large one's
times the power of the grain ratio. -/
theorem c219_design (dw vw : ℝ) (g : Geom) (hL : 0 < g.L) (hD : 0 < g.diam) (hQ : 0 < g.flrt) (hr : 0 < g.rad) {T x b d : ℝ}
    (hb : 0 < b) (hd : 0 < d) {s : SmallCol}
    (hs : calcRSSCT (buildLarge (Spec.largeOf g T)) (some (.num b)) (some (.num d)) none x = .ok s) :
    ∃ l q m, s.length = some l ∧ s.Q = some q ∧ s.mass = some m ∧ s.diam = some b ∧ s.partDiam = some d ∧
      let g' := Spec.smallOf g l b m q d
      (derive dw vw g').ebed = (derive dw vw g).ebed ∧ (derive dw vw g').re = (derive dw vw g).re ∧
      (derive dw vw g').tau = (g'.rad / g.rad) ^ (2 - x) * (derive dw vw g).tau ∧
      (derive dw vw g').ebct = (g'.rad / g.rad) ^ (2 - x) * (derive dw vw g).ebct ∧
      s.duration = some ((g'.rad / g.rad) ^ (2 - x) * T) := by
  have hpi := Real.pi_pos
  have h20 : 0 < 20 * g.rad := by positivity
  have hs' : s = smallFrom (buildLarge (Spec.largeOf g T)) (some b) (some d) x := by
    have : calcRSSCT (buildLarge (Spec.largeOf g T)) (some (.num b)) (some (.num d)) none x =
      .ok (smallFrom (buildLarge (Spec.largeOf g T)) (some b) (some d) x) := rfl
    rw [this] at hs
    exact (Except.ok.inj hs).symm
  subst hs'
  have hR := Real.rpow_pos_of_pos h20 (2 - x)
  have hS := Real.rpow_pos_of_pos hd (2 - x)
  have hrat : (d / 20 / g.rad) ^ (2 - x) = d ^ (2 - x) / (20 * g.rad) ^ (2 - x) := by
    rw [div_div, Real.div_rpow hd.le h20.le]
  generalize hp : d ^ (2 - x) = p at *
  generalize hw : (20 * g.rad) ^ (2 - x) = w at *
  have hf : smallFrom (buildLarge (Spec.largeOf g T)) (some b) (some d) x =
      let e := g.L * Real.pi / 4 * g.diam ^ 2 / g.flrt * p / w
      let v := g.flrt / (Real.pi / 4 * g.diam ^ 2) / 100 / (1 / (24 * 60) / (1 / 24)) * (20 * g.rad) / d
      let l := e * v * (1 / (24 * 60)) / (1 / 24) * 100
      let vol := b ^ 2 * Real.pi / 4 * l
      { diam := some b, length := some l, partDiam := some d, ebct := some e, duration := some (T * p / w)
        loading := some v, Q := some (vol / e), mass := some (vol * (g.wt / (Real.pi / 4 * g.diam ^ 2 * g.L)))
        water := some (T * p / w * (vol / e) / (1 / (24 * 60)) / 1000) } := by
    subst hp hw
    rfl
  rw [hf]
  refine ⟨_, _, _, rfl, rfl, rfl, rfl, rfl, ?_⟩
  simp only [Spec.smallOf, derive, hrat]
  have hne : g.L ≠ 0 := hL.ne'
  have hne2 : g.diam ≠ 0 := hD.ne'
  have hne3 : g.flrt ≠ 0 := hQ.ne'
  have hne4 : g.rad ≠ 0 := hr.ne'
  have hne5 : p ≠ 0 := hS.ne'
  have hne6 : w ≠ 0 := hR.ne'
  set e := g.L * Real.pi / 4 * g.diam ^ 2 / g.flrt * p / w with he
  have he0 : e ≠ 0 := by
    rw [he]; positivity
  set l := e * (g.flrt / (Real.pi / 4 * g.diam ^ 2) / 100 / (1 / (24 * 60) / (1 / 24)) * (20 * g.rad) / d) *
    (1 / (24 * 60)) / (1 / 24) * 100 with hl
  have hl1 : l = e * (g.flrt / (Real.pi / 4 * g.diam ^ 2)) * (20 * g.rad) / d := by
    rw [hl]; field_simp
  have hl0 : l ≠ 0 := by
    rw [hl1]; positivity
  have hb0 : b ≠ 0 := hb.ne'
  have hd0 : d ≠ 0 := hd.ne'
  have hebed : 1 - b ^ 2 * Real.pi / 4 * l * (g.wt / (Real.pi / 4 * g.diam ^ 2 * g.L)) /
      (Real.pi * b ^ 2 / 4 * l * g.rhop) = 1 - g.wt / (Real.pi * g.diam ^ 2 / 4 * g.L * g.rhop) := by
    congr 1
    by_cases hrh : g.rhop = 0
    · simp [hrh]
    · field_simp
  rw [hebed]
  generalize 1 - g.wt / (Real.pi * g.diam ^ 2 / 4 * g.L * g.rhop) = eb
  refine ⟨rfl, ?_, ?_, ?_, ?_⟩
  · have : 2 * (d / 20) * (b ^ 2 * Real.pi / 4 * l / e / (60 * (Real.pi * b ^ 2 / 4))) =
        2 * g.rad * (g.flrt / (60 * (Real.pi * g.diam ^ 2 / 4))) := by
      rw [hl1]
      field_simp
    rw [this]
  · have : Real.pi * b ^ 2 / 4 * l * eb * 60 / (b ^ 2 * Real.pi / 4 * l / e) = eb * 60 * e := by
      field_simp
    rw [this, he]
    field_simp
  · have : Real.pi * b ^ 2 / 4 * l / (b ^ 2 * Real.pi / 4 * l / e) = e := by
      field_simp
    rw [this, he]
    field_simp
  · congr 1
    field_simp

theorem smallOf_col {dw vw : ℝ} {org : Bool} {g : Geom} {l b m q d th : ℝ} (hr : 0 < g.rad)
    (h1 : (derive dw vw (Spec.smallOf g l b m q d)).ebed = (derive dw vw g).ebed)
    (h2 : (derive dw vw (Spec.smallOf g l b m q d)).re = (derive dw vw g).re)
    (h3 : (derive dw vw (Spec.smallOf g l b m q d)).tau = th * (derive dw vw g).tau) :
    gacColOf dw vw org (Spec.smallOf g l b m q d) =
      { gacColOf dw vw org g with rad := d / 20 / g.rad * g.rad, tau := th * (gacColOf dw vw org g).tau } := by
  rw [div_mul_cancel₀ _ hr.ne']
  simp only [gacColOf, h1, h2, h3]
  rfl

/-- The correlation for the film coefficient gives the inverse of the grain size at equal Reynolds number. -/
theorem kfCorr_scale {lam : ℝ} (hl : lam ≠ 0) (vw dw molVol rad re ebed : ℝ) :
    kfCorr vw dw molVol (lam * rad) re ebed = 1 / lam * kfCorr vw dw molVol rad re ebed := by
  unfold kfCorr
  simp only
  have : difl vw molVol / (2 * (lam * rad)) = 1 / lam * (difl vw molVol / (2 * rad)) := by
    by_cases hr : rad = 0
    · simp [hr]
    · field_simp
  rw [this]
  ring

/-- C219. A small column by the constant diffusivity design (`power_x=0`, the default) has the equations of the large one when
film coefficients come from the correlation, whether diffusivities are given or not. Times are the square of the grain ratio
as large, as the design says of the duration. -/
theorem c219_constant (dw vw : ℝ) (org : Bool) (g : Geom) (hL : 0 < g.L) (hD : 0 < g.diam) (hQ : 0 < g.flrt) (hr : 0 < g.rad)
    {T b d : ℝ} (hb : 0 < b) (hd : 0 < d) {s : SmallCol}
    (hs : calcRSSCT (buildLarge (Spec.largeOf g T)) (some (.num b)) (some (.num d)) none 0 = .ok s)
    (cs : Fin n → GacComp) (hk : ∀ i, (cs i).mtKf ≤ 0)
    (wr : Fin (r + 1) → ℝ) (br : Fin (r + 1) → Fin (r + 1) → ℝ) (az : Fin (z + 1) → Fin (z + 1) → ℝ) :
    ∃ l q m, s.length = some l ∧ s.Q = some q ∧ s.mass = some m ∧
      let G := gacColOf dw vw org g
      let G' := gacColOf dw vw org (Spec.smallOf g l b m q d)
      gacDim G' cs wr br az = gacDim G cs wr br az ∧ tconvOf G' cs = tconvOf G cs / (d / 20 / g.rad) ^ 2 ∧
      s.duration = some ((d / 20 / g.rad) ^ 2 * T) := by
  obtain ⟨l, q, m, h1, h2, h3, -, -, hE, hR, hT, -, hdur⟩ := c219_design dw vw g hL hD hQ hr hb hd hs
  have hlam : 0 < d / 20 / g.rad := by positivity
  have hpow : (d / 20 / g.rad) ^ ((2:ℝ) - 0) = (d / 20 / g.rad) ^ 2 := by
    rw [sub_zero]; exact_mod_cast Real.rpow_natCast _ 2
  have hT' : (derive dw vw (Spec.smallOf g l b m q d)).tau = (d / 20 / g.rad) ^ 2 * (derive dw vw g).tau := by
    rw [hT]; rw [← hpow]; rfl
  have hcol := smallOf_col (org := org) hr hE hR hT'
  refine ⟨l, q, m, h1, h2, h3, ?_⟩
  intro G G'
  have hG : G' = { G with rad := d / 20 / g.rad * G.rad, tau := (d / 20 / g.rad) ^ 2 * G.tau, re := G'.re } := by
    have : G'.re = G.re := hR
    rw [this]
    exact hcol
  have hone : (d / 20 / g.rad) ^ 2 / (d / 20 / g.rad) ^ 2 = 1 := div_self (pow_ne_zero _ hlam.ne')
  have key := c219_groups (G := G) (G' := G') (cs := cs) (cs' := cs) (lam := d / 20 / g.rad) (th := (d / 20 / g.rad) ^ 2)
    hlam.ne' (pow_ne_zero _ hlam.ne') hG (fun i => ⟨rfl, rfl, rfl, rfl⟩) ?_ ?_ ?_ wr br az
  · refine ⟨key.1, key.2, ?_⟩
    rw [hdur, ← hpow]; rfl
  · intro i
    have e : (d / 20 / g.rad) / (d / 20 / g.rad) ^ 2 = 1 / (d / 20 / g.rad) := by
      field_simp
    rw [e]
    unfold kfUsed
    rw [if_neg (not_lt.2 (hk i)), if_neg (not_lt.2 (hk i)), ← kfCorr_scale hlam.ne']
    show kfCorr (gacColOf dw vw org (Spec.smallOf g l b m q d)).vw _ _ (gacColOf dw vw org (Spec.smallOf g l b m q d)).rad
      (gacColOf dw vw org (Spec.smallOf g l b m q d)).re (gacColOf dw vw org (Spec.smallOf g l b m q d)).ebed = _
    rw [hcol]
    rfl
  · intro i
    rw [hone, one_mul]
    rfl
  · intro i
    rw [hone, one_mul]
    rfl

/-- C219. So both columns put out the same relative concentrations when as many bed volumes have passed: `y` at minute `t` of
the large column, `y'` at minute `(d/D)²·t` of the small one, under the same relative influent. -/
theorem c219_effluent {G G' : GacCol} {cs : Fin n → GacComp} {wr : Fin (r + 1) → ℝ} {br : Fin (r + 1) → Fin (r + 1) → ℝ}
    {az : Fin (z + 1) → Fin (z + 1) → ℝ} {th : ℝ} (hth : 0 < th) (hdim : gacDim G' cs wr br az = gacDim G cs wr br az)
    (htc : tconvOf G' cs = tconvOf G cs / th) (hpos : 0 < tconvOf G cs) (hcs : ∀ i, (cs i).Ok) (hle : ∀ i, (cs i).xn ≤ 1)
    {cinfl foul fac : ℝ → Fin n → ℝ} {T1 : ℝ} (h1 : ContinuousOn cinfl (Icc 0 T1)) (h2 : ContinuousOn foul (Icc 0 T1))
    (h3 : ContinuousOn fac (Icc 0 T1)) {y y' : ℝ → GacState n r z} (h0 : y 0 = y' 0)
    (hy : Spec.Solves gacComp (fun t u => gacRhs (gacDim G cs wr br az) (cinfl t) (foul t) (fac t) u) 0 T1 y)
    (hy' : Spec.Solves gacComp (fun t u => gacRhs (gacDim G' cs wr br az) (cinfl t) (foul t) (fac t) u) 0 T1 y') :
    ∀ t, 0 ≤ t → t * tconvOf G cs ≤ T1 → y' (th * t * tconvOf G' cs) = y (t * tconvOf G cs) := by
  intro t ht0 ht1
  have e : th * t * tconvOf G' cs = t * tconvOf G cs := by
    rw [htc]; field_simp
  rw [e]
  rw [hdim] at hy'
  exact (c211_unique (gacDim G cs wr br az) (ym_pos hcs) (fun j => ⟨(hcs j).2.1, hle j⟩) h1 h2 h3 hy hy' h0 _
    ⟨mul_nonneg ht0 hpos.le, ht1⟩).symm

/-- C219. Fouling, tortuosity and influent are tabulated in minutes. At the same dimensionless time the small column reads them at the
minute `th` times the large one's, so it is less fouled than the column it stands for. -/
theorem c219_tables {G G' : GacCol} {cs : Fin n → GacComp} {th : ℝ} (htc : tconvOf G' cs = tconvOf G cs / th) (len : ℕ)
    (A : ℕ → ℝ) (t : ℝ) : gacSample len A (tconvOf G' cs) t = gacSample len A (tconvOf G cs) (th * t) := by
  have : t / (tconvOf G cs / th) = th * t / tconvOf G cs := by
    by_cases h1 : th = 0
    · simp [h1]
    · by_cases h2 : tconvOf G cs = 0
      · simp [h2]
      · field_simp
  simp only [gacSample, htc, this]

/-- C219. The proportional diffusivity design (`power_x=1`), with given diffusivities that are as much smaller as the grains:
everything agrees except the Stanton numbers, which are larger by the ratio of the grains. The film counts for less in the
small column than in the large one. -/
theorem c219_proportional (dw vw : ℝ) (org : Bool) (g : Geom) (hL : 0 < g.L) (hD : 0 < g.diam) (hQ : 0 < g.flrt) (hr : 0 < g.rad)
    {T b d : ℝ} (hb : 0 < b) (hd : 0 < d) {s : SmallCol}
    (hs : calcRSSCT (buildLarge (Spec.largeOf g T)) (some (.num b)) (some (.num d)) none 1 = .ok s)
    (cs : Fin n → GacComp) (hk : ∀ i, (cs i).mtKf ≤ 0) (hp : ∀ i, 0 < (cs i).mtDp) (hsd : ∀ i, 0 < (cs i).mtDs)
    (wr : Fin (r + 1) → ℝ) (br : Fin (r + 1) → Fin (r + 1) → ℝ) (az : Fin (z + 1) → Fin (z + 1) → ℝ) :
    ∃ l q m, s.length = some l ∧ s.Q = some q ∧ s.mass = some m ∧
      let lam := d / 20 / g.rad
      let G := gacColOf dw vw org g
      let G' := gacColOf dw vw org (Spec.smallOf g l b m q d)
      let cs' := fun i => { cs i with mtDp := lam * (cs i).mtDp, mtDs := lam * (cs i).mtDs }
      gacDim G' cs' wr br az = { gacDim G cs wr br az with stdv := fun i => 1 / lam * stdvOf G cs i } ∧
      tconvOf G' cs' = tconvOf G cs / lam := by
  obtain ⟨l, q, m, h1, h2, h3, -, -, hE, hR, hT, -, -⟩ := c219_design dw vw g hL hD hQ hr hb hd hs
  have hlam : 0 < d / 20 / g.rad := by positivity
  have hpow : (d / 20 / g.rad) ^ ((2:ℝ) - 1) = d / 20 / g.rad := by
    rw [show (2:ℝ) - 1 = 1 by norm_num, Real.rpow_one]
  have hT' : (derive dw vw (Spec.smallOf g l b m q d)).tau = d / 20 / g.rad * (derive dw vw g).tau := by
    rw [hT]
    have : (Spec.smallOf g l b m q d).rad / g.rad = d / 20 / g.rad := rfl
    rw [this, hpow]
  have hcol := smallOf_col (org := org) hr hE hR hT'
  refine ⟨l, q, m, h1, h2, h3, ?_⟩
  intro lam G G' cs'
  have hG : G' = { G with rad := lam * G.rad, tau := lam * G.tau, re := G'.re } := by
    have : G'.re = G.re := hR
    rw [this]
    exact hcol
  have hone : lam ^ 2 / lam = lam := by
    have : lam ≠ 0 := hlam.ne'
    field_simp
  have hf1 : ∀ i, kfUsed G' (cs' i) = 1 / lam * kfUsed G (cs i) := by
    intro i
    unfold kfUsed
    rw [if_neg (not_lt.2 (hk i)), if_neg (not_lt.2 (hk i)), ← kfCorr_scale hlam.ne', hG]
    simp only
    have : G'.re = G.re := hR
    rw [this]
  have hf2 : ∀ i, dpUsed G' (cs' i) = lam ^ 2 / lam * dpUsed G (cs i) := by
    intro i
    unfold dpUsed
    rw [if_pos (hp i), if_pos (mul_pos hlam (hp i)), hone]
  have hf3 : ∀ i, dsUsed G' (cs' i) = lam ^ 2 / lam * dsUsed G (cs i) := by
    intro i
    have ho : G'.organicFree = G.organicFree := rfl
    unfold dsUsed
    simp only
    rw [if_pos (hsd i), if_pos (mul_pos hlam (hsd i)), hone, ho]
    split
    · rfl
    · ring
  obtain ⟨k1, k2⟩ := gacDim_scale (cs := cs) (cs' := cs') (lam := lam) (th := lam) hlam.ne' hlam.ne' hG (fun i => ⟨rfl, rfl, rfl, rfl⟩) hf1 hf2 hf3 wr br az
  refine ⟨k1.trans ?_, k2⟩
  have : 1 / lam * lam / lam = 1 / lam := by
    have : lam ≠ 0 := hlam.ne'
    field_simp
  rw [this]

/-- A pilot bed of 1 mm grains and its small column with 0.2 mm grains: the design works, times are 25 times shorter. -/
example : ∃ s, calcRSSCT (buildLarge (Spec.largeOf ⟨83, 5, 834, 170, 3 / 4, 1 / 2, 1 / 20, 1, 5, 3 / 5⟩ 100)) (some (.num 1.1))
    (some (.num (1 / 5))) none 0 = .ok s ∧ s.duration = some 4 := by
  have h := c219_constant (n := 1) (r := 0) (z := 0) 1 1 true ⟨83, 5, 834, 170, 3 / 4, 1 / 2, 1 / 20, 1, 5, 3 / 5⟩ (by norm_num)
    (by norm_num) (by norm_num) (by norm_num) (T := 100) (b := 1.1) (d := 1 / 5) (by norm_num) (by norm_num) rfl
    (fun _ => ⟨100, 1 / 2, 131, 90, 3, 0, 0, 0⟩) (fun _ => le_rfl) 0 0 0
  obtain ⟨l, q, m, -, -, -, -, -, h⟩ := h
  refine ⟨_, rfl, h.trans ?_⟩
  norm_num

end
end WTM
