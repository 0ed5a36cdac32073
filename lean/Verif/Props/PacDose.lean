import Mathlib.Tactic
import Verif.Props.PacLimit
import Verif.Props.PacSol

/-! Properties C238, C239: more carbon leaves less in the water; the compounds of the powdered carbon model do not compete. -/
set_option autoImplicit false
namespace WTM
open BigOperators Set Filter Topology

/-- The concentration at which a mass balance with a Freundlich isotherm closes falls when the carbon takes up more. -/
theorem closes_anti {s1 s2 x c1 c2 : ℝ} (hs : 0 < s1) (h : s1 < s2) (hx : 0 < x) (h1 : 0 ≤ c1) (h2 : 0 ≤ c2)
    (e1 : c1 + s1 * c1 ^ x = 1) (e2 : c2 + s2 * c2 ^ x = 1) : 0 < c2 ∧ c2 < c1 ∧ c1 < 1 := by
  have p : ∀ {s c : ℝ}, 0 ≤ c → c + s * c ^ x = 1 → 0 < c := by
    intro s c hc e
    refine lt_of_le_of_ne hc fun h0 => ?_
    rw [← h0, Real.zero_rpow hx.ne'] at e
    norm_num at e
  have p1 := p h1 e1
  have p2 := p h2 e2
  refine ⟨p2, ?_, ?_⟩
  · by_contra hle
    push Not at hle
    have := Real.rpow_le_rpow h1 hle hx.le
    have h3 := mul_lt_mul_of_pos_right h (Real.rpow_pos_of_pos p2 x)
    have h4 := mul_le_mul_of_nonneg_left this hs.le
    linarith
  · have := mul_pos hs (Real.rpow_pos_of_pos p1 x)
    linarith

section
variable {m nd : ℕ} {jac : Fin nd → ℝ} {B : Fin (nd + 1) → Fin (nd + 1) → ℝ} {W : Fin (nd + 1) → ℝ}

/-- What the carbon in the contactor can take up per concentration in the water. -/
noncomputable def Spec.pacUptake (p : Pac m) (i : Fin m) : ℝ :=
  (1 - p.epsilon) / p.epsilon * (p.density * 1000) * (p.comp i).K

theorem pac_end (p : Pac m) {i : Fin m} (hp : Spec.PacPhysical p i) (g : Spec.BeadGrid jac B W) {y : ℝ → PacY nd m}
    (hy : Spec.PacRun p B W y) (h0 : y 0 = pacInit) :
    ∃ c, 0 ≤ c ∧ c + Spec.pacUptake p i * c ^ (p.comp i).xni = 1 ∧
      Tendsto (fun t => (p.comp i).C0 * (y t).2 i) atTop (𝓝 ((p.comp i).C0 * c)) := by
  obtain ⟨c, ⟨hc, he⟩, -⟩ := c212_final p hp
  refine ⟨c, hc, ?_, (c212_start p hp g hy h0 hc he).1⟩
  have := hp.eps.1.ne'
  unfold Spec.pacUptake
  field_simp
  linear_combination he

/-- C238. Of two contactors with the same water, the one whose carbon takes up more ends at the lower concentration; both below the
influent and above zero. -/
theorem c238_final (p p' : Pac m) {i : Fin m} (hp : Spec.PacPhysical p i) (hp' : Spec.PacPhysical p' i) {nd' : ℕ} {jac' : Fin nd' → ℝ}
    {B' : Fin (nd' + 1) → Fin (nd' + 1) → ℝ} {W' : Fin (nd' + 1) → ℝ} (g : Spec.BeadGrid jac B W) (g' : Spec.BeadGrid jac' B' W')
    (hC : (p'.comp i).C0 = (p.comp i).C0) (hC0 : 0 < (p.comp i).C0) (hx : (p'.comp i).xni = (p.comp i).xni)
    (hs : Spec.pacUptake p i < Spec.pacUptake p' i) {y : ℝ → PacY nd m} {y' : ℝ → PacY nd' m}
    (hy : Spec.PacRun p B W y) (h0 : y 0 = pacInit) (hy' : Spec.PacRun p' B' W' y') (h0' : y' 0 = pacInit) :
    ∃ c c', Tendsto (fun t => (p.comp i).C0 * (y t).2 i) atTop (𝓝 c) ∧ Tendsto (fun t => (p'.comp i).C0 * (y' t).2 i) atTop (𝓝 c') ∧
      0 < c' ∧ c' < c ∧ c < (p.comp i).C0 := by
  obtain ⟨c, hc, e, ht⟩ := pac_end p hp g hy h0
  obtain ⟨c', hc', e', ht'⟩ := pac_end p' hp' g' hy' h0'
  rw [hx] at e'
  have hpos : 0 < Spec.pacUptake p i := by
    unfold Spec.pacUptake
    have := hp.eps.1
    have := sub_pos.2 hp.eps.2
    have := hp.density
    have := hp.K
    positivity
  obtain ⟨h1, h2, h3⟩ := closes_anti hpos hs hp.xni.1 hc hc' e e'
  refine ⟨_, _, ht, ht', ?_, ?_, ?_⟩
  · rw [hC]; exact mul_pos hC0 h1
  · rw [hC]; exact mul_lt_mul_of_pos_left h2 hC0
  · exact mul_lt_of_lt_one_right hC0 h3

/-- C238. More carbon: with the larger of two doses the effluent ends lower. -/
theorem c238_dose (p : Pac m) {i : Fin m} {d d' : ℝ} (hd : 0 < d) (hdd : d < d') (hd' : d' < p.dw * 1e6)
    (hp : Spec.PacPhysical (({ p with dosage := d } : Pac m).update) i) (g : Spec.BeadGrid jac B W) (hC0 : 0 < (p.comp i).C0)
    {y y' : ℝ → PacY nd m} (hy : Spec.PacRun (({ p with dosage := d } : Pac m).update) B W y) (h0 : y 0 = pacInit)
    (hy' : Spec.PacRun (({ p with dosage := d' } : Pac m).update) B W y') (h0' : y' 0 = pacInit) :
    ∃ c c', Tendsto (fun t => (p.comp i).C0 * (y t).2 i) atTop (𝓝 c) ∧ Tendsto (fun t => (p.comp i).C0 * (y' t).2 i) atTop (𝓝 c') ∧
      0 < c' ∧ c' < c ∧ c < (p.comp i).C0 := by
  have hw : 0 < p.dw * 1e6 := hd.trans (hdd.trans hd')
  have e1 : d / (p.dw * 1e6) < 1 := (div_lt_one hw).2 (hdd.trans hd')
  have e2 : d' / (p.dw * 1e6) < 1 := (div_lt_one hw).2 hd'
  have e0 : 0 < d / (p.dw * 1e6) := div_pos hd hw
  have e3 : d / (p.dw * 1e6) < d' / (p.dw * 1e6) := div_lt_div_of_pos_right hdd hw
  have hp' : Spec.PacPhysical (({ p with dosage := d' } : Pac m).update) i := by
    refine ⟨⟨?_, ?_⟩, hp.radius, hp.density, hp.porosity, hp.K, hp.xni, hp.kf, hp.Ds⟩
    · show 0 < 1 - d' / (p.dw * 1e6)
      linarith
    · show 1 - d' / (p.dw * 1e6) < 1
      linarith
  refine c238_final _ _ hp hp' g g rfl hC0 rfl ?_ hy h0 hy' h0'
  unfold Spec.pacUptake
  have hden := hp.density
  have hK := hp.K
  have f1 : (1 - (1 - d / (p.dw * 1e6))) / (1 - d / (p.dw * 1e6)) < (1 - (1 - d' / (p.dw * 1e6))) / (1 - d' / (p.dw * 1e6)) := by
    rw [div_lt_div_iff₀ (by linarith) (by linarith)]
    nlinarith
  exact mul_lt_mul_of_pos_right (mul_lt_mul_of_pos_right f1 (by linarith [show 0 < p.density * 1000 from mul_pos hden (by norm_num)])) hK

/-- C238. The same for a carbon of larger capacity. -/
theorem c238_capacity (p : Pac m) {i : Fin m} {k k' : ℝ} (hk : k < k')
    (hp : Spec.PacPhysical ({ p with comp := fun j => { p.comp j with K := k } } : Pac m) i) (g : Spec.BeadGrid jac B W)
    (hC0 : 0 < (p.comp i).C0) {y y' : ℝ → PacY nd m}
    (hy : Spec.PacRun ({ p with comp := fun j => { p.comp j with K := k } } : Pac m) B W y) (h0 : y 0 = pacInit)
    (hy' : Spec.PacRun ({ p with comp := fun j => { p.comp j with K := k' } } : Pac m) B W y') (h0' : y' 0 = pacInit) :
    ∃ c c', Tendsto (fun t => (p.comp i).C0 * (y t).2 i) atTop (𝓝 c) ∧ Tendsto (fun t => (p.comp i).C0 * (y' t).2 i) atTop (𝓝 c') ∧
      0 < c' ∧ c' < c ∧ c < (p.comp i).C0 := by
  have hp' : Spec.PacPhysical ({ p with comp := fun j => { p.comp j with K := k' } } : Pac m) i :=
    ⟨hp.eps, hp.radius, hp.density, hp.porosity, hp.K.trans hk, hp.xni, hp.kf, hp.Ds⟩
  refine c238_final _ _ hp hp' g g rfl hC0 rfl ?_ hy h0 hy' h0'
  unfold Spec.pacUptake
  have hE := hp.eps
  have := sub_pos.2 hE.2
  have h1 := hp.density
  have hpos : 0 < (1 - p.epsilon) / p.epsilon * (p.density * 1000) := mul_pos (div_pos this hE.1) (mul_pos h1 (by norm_num))
  exact mul_lt_mul_of_pos_left hk hpos

/-- C238. The film solution: at every time after the start a larger dose leaves less. -/
theorem c238_film (p : Pac m) {i : Fin m} {d d' : ℝ} (hd : 0 ≤ d) (hdd : d < d') (hd' : d' < p.dw * 1e6) (hh : 0 < p.hrt)
    (hr : 0 < p.radius) (hk : 0 < (p.comp i).kf) (hC : 0 < (p.comp i).C0) {t : ℝ} (ht : 0 < t) :
    (({ p with dosage := d' } : Pac m).update).filmSol i t < (({ p with dosage := d } : Pac m).update).filmSol i t := by
  have hw : 0 < p.dw * 1e6 := hd.trans_lt (hdd.trans hd')
  have e1 : d / (p.dw * 1e6) < 1 := (div_lt_one hw).2 (hdd.trans hd')
  have e2 : d' / (p.dw * 1e6) < 1 := (div_lt_one hw).2 hd'
  have e0 : 0 ≤ d / (p.dw * 1e6) := div_nonneg hd hw.le
  have e3 : d / (p.dw * 1e6) < d' / (p.dw * 1e6) := div_lt_div_of_pos_right hdd hw
  have key : ∀ δ : ℝ, 0 ≤ δ / (p.dw * 1e6) → δ / (p.dw * 1e6) < 1 →
      (({ p with dosage := δ } : Pac m).update).filmSol i t = (p.comp i).C0 *
        (1 - (1 - 1 / (1 + 3 * (p.comp i).kf * p.hrt / p.radius * (δ / (p.dw * 1e6)))) *
          (1 - Real.exp (-((1 / p.hrt + 3 * (p.comp i).kf / p.radius * (δ / (p.dw * 1e6))) / (1 - δ / (p.dw * 1e6)) * t)))) := by
    intro δ h0 h1
    have hE : ({ p with dosage := δ } : Pac m).update.filmA i =
        (1 / p.hrt + 3 * (p.comp i).kf / p.radius * (δ / (p.dw * 1e6))) / (1 - δ / (p.dw * 1e6)) := by
      show 1 / ((1 - δ / (p.dw * 1e6)) * p.hrt) + 3 * (p.comp i).kf * (1 - (1 - δ / (p.dw * 1e6))) / (p.radius * (1 - δ / (p.dw * 1e6))) = _
      have : 1 - δ / (p.dw * 1e6) ≠ 0 := by linarith
      generalize δ / (p.dw * 1e6) = u at *
      field_simp
      ring
    have hB : ({ p with dosage := δ } : Pac m).update.filmB i = (p.comp i).C0 / ((1 - δ / (p.dw * 1e6)) * p.hrt) := rfl
    have hc : (({ p with dosage := δ } : Pac m).update.comp i).C0 = (p.comp i).C0 := rfl
    unfold Pac.filmSol
    rw [hE, hB, hc, Real.exp_neg]
    have : 1 - δ / (p.dw * 1e6) ≠ 0 := by linarith
    generalize δ / (p.dw * 1e6) = u at *
    have hX := (Real.exp_pos ((1 / p.hrt + 3 * (p.comp i).kf / p.radius * u) / (1 - u) * t)).ne'
    generalize Real.exp ((1 / p.hrt + 3 * (p.comp i).kf / p.radius * u) / (1 - u) * t) = X at *
    have h3 : p.radius + 3 * (p.comp i).kf * p.hrt * u ≠ 0 := by positivity
    have h4 : 1 / p.hrt + 3 * (p.comp i).kf / p.radius * u = (p.radius + 3 * (p.comp i).kf * p.hrt * u) / (p.hrt * p.radius) := by
      field_simp
    have h5 : 1 + 3 * (p.comp i).kf * p.hrt / p.radius * u = (p.radius + 3 * (p.comp i).kf * p.hrt * u) / p.radius := by
      field_simp
    rw [h4, h5]
    field_simp
    ring
  rw [key d e0 e1, key d' (e0.trans e3.le) e2]
  generalize d / (p.dw * 1e6) = u at *
  generalize d' / (p.dw * 1e6) = v at *
  refine mul_lt_mul_of_pos_left ?_ hC
  have hu : 0 < 1 - u := by linarith
  have hv : 0 < 1 - v := by linarith
  have hv0 : 0 < v := by linarith
  have a1 : 1 - 1 / (1 + 3 * (p.comp i).kf * p.hrt / p.radius * u) < 1 - 1 / (1 + 3 * (p.comp i).kf * p.hrt / p.radius * v) := by
    have : 1 / (1 + 3 * (p.comp i).kf * p.hrt / p.radius * v) < 1 / (1 + 3 * (p.comp i).kf * p.hrt / p.radius * u) := by
      apply one_div_lt_one_div_of_lt (by positivity)
      gcongr
    linarith
  have a0 : 0 ≤ 1 - 1 / (1 + 3 * (p.comp i).kf * p.hrt / p.radius * u) := by
    have : 1 / (1 + 3 * (p.comp i).kf * p.hrt / p.radius * u) ≤ 1 := by
      rw [div_le_one (by positivity)]
      have : 0 ≤ 3 * (p.comp i).kf * p.hrt / p.radius * u := by positivity
      linarith
    linarith
  have b1 : Real.exp (-((1 / p.hrt + 3 * (p.comp i).kf / p.radius * v) / (1 - v) * t)) ≤
      Real.exp (-((1 / p.hrt + 3 * (p.comp i).kf / p.radius * u) / (1 - u) * t)) := by
    gcongr
  have b0 : Real.exp (-((1 / p.hrt + 3 * (p.comp i).kf / p.radius * v) / (1 - v) * t)) < 1 := by
    rw [Real.exp_lt_one_iff]
    have : 0 < (1 / p.hrt + 3 * (p.comp i).kf / p.radius * v) / (1 - v) * t := by positivity
    linarith
  have m1 := mul_lt_mul_of_pos_right a1 (sub_pos.2 b0)
  have m2 := mul_le_mul_of_nonneg_left (sub_le_sub_left b1 1) a0
  linarith

/-- C238. The same for the curve of film transfer to a carbon of linear isotherm. -/
theorem c238_helfferich {d d' rho Kd rb kL t : ℝ} (hd : 0 < d) (hdd : d < d') (hrho : 0 < rho) (hK : 0 < Kd) (hr : 0 < rb)
    (hL : 0 < kL) (ht : 0 < t) : helfCurve d' rho Kd rb kL t < helfCurve d rho Kd rb kL t := by
  unfold helfCurve helfferich
  have hr6 : 0 < rho * 1e6 := by positivity
  have e3 : d / (rho * 1e6) < d' / (rho * 1e6) := div_lt_div_of_pos_right hdd hr6
  have e0 : 0 < d / (rho * 1e6) := by positivity
  unfold pacDepl pacA
  generalize d / (rho * 1e6) = u at *
  generalize d' / (rho * 1e6) = v at *
  have hv : 0 < v := e0.trans e3
  have neg : -3 * kL / rb / Kd * t < 0 := by
    have : 0 < 3 * kL / rb / Kd * t := by positivity
    have e : -3 * kL / rb / Kd * t = -(3 * kL / rb / Kd * t) := by ring
    linarith
  have x1 : Real.exp ((Kd * v / 1 + 1) * (-3 * kL / rb / Kd * t)) < Real.exp ((Kd * u / 1 + 1) * (-3 * kL / rb / Kd * t)) := by
    apply Real.exp_lt_exp.2
    apply mul_lt_mul_of_neg_right _ neg
    gcongr
  have x0 : Real.exp ((Kd * u / 1 + 1) * (-3 * kL / rb / Kd * t)) < 1 := by
    rw [Real.exp_lt_one_iff]
    exact mul_neg_of_pos_of_neg (by positivity) neg
  have y1 : 1 / (1 + 1 / u / Kd) < 1 / (1 + 1 / v / Kd) := by
    apply one_div_lt_one_div_of_lt (by positivity)
    gcongr
  have y0 : 0 < 1 / (1 + 1 / u / Kd) := by positivity
  have := mul_lt_mul'' (sub_lt_sub_left x1 1) y1 (sub_nonneg.2 x0.le) y0.le
  linarith

/-! ### C239 -/

/-- Some of the compounds of a contactor, in any order, perhaps repeated. -/
def Spec.pickPac {m' : ℕ} (p : Pac m) (e : Fin m' → Fin m) : Pac m' where
  density := p.density
  porosity := p.porosity
  radius := p.radius
  dw := p.dw
  hrt := p.hrt
  dosage := p.dosage
  duration := p.duration
  epsilon := p.epsilon
  conv := fun i => p.conv (e i)
  comp := fun i => p.comp (e i)

def Spec.pickPacY {m' : ℕ} (e : Fin m' → Fin m) (y : PacY nd m) : PacY nd m' := (fun k i => y.1 k (e i), fun i => y.2 (e i))

/-- C239. The derived rows of a compound do not depend on the others. -/
theorem c239_update {m' : ℕ} (p : Pac m) (e : Fin m' → Fin m) : (Spec.pickPac p e).update = Spec.pickPac p.update e := rfl

/-- C239. Nor do its rates. -/
theorem c239_rates {m' : ℕ} (p : Pac m) (e : Fin m' → Fin m) (B : Fin (nd + 1) → Fin (nd + 1) → ℝ) (W : Fin (nd + 1) → ℝ)
    (y : PacY nd m) : (Spec.pickPac p e).rhs B W (Spec.pickPacY e y) = Spec.pickPacY e (p.rhs B W y) := rfl

/-- C239. The exact effluent of a compound is that of a contactor with it alone, or with any others. -/
theorem c239_run {m' : ℕ} (p : Pac m) (hx : ∀ i, 0 < (p.comp i).xni ∧ (p.comp i).xni ≤ 1) (e : Fin m' → Fin m)
    (B : Fin (nd + 1) → Fin (nd + 1) → ℝ) (W : Fin (nd + 1) → ℝ) {y : ℝ → PacY nd m} {y' : ℝ → PacY nd m'}
    (hy : Spec.PacRun p B W y) (h0 : y 0 = pacInit) (hy' : Spec.PacRun (Spec.pickPac p e) B W y') (h0' : y' 0 = pacInit)
    (i : Fin m') : ∀ t ≥ 0, ((Spec.pickPac p e).comp i).C0 * (y' t).2 i = (p.comp (e i)).C0 * (y t).2 (e i) := by
  have hr : Spec.PacRun (Spec.pickPac p e) B W (fun t => Spec.pickPacY e (y t)) := by
    intro T t ht a
    rcases a with ⟨k, j⟩ | j
    · exact hy T t ht (.inl (k, e j))
    · exact hy T t ht (.inr (e j))
  have h00 : Spec.pickPacY e (y 0) = pacInit := by rw [h0]; rfl
  intro t ht
  have := c211_pac_unique (Spec.pickPac p e) (fun j => hx (e j)) B W (hy' t) (hr t) (h0'.trans h00.symm) t ⟨ht, le_rfl⟩
  rw [this]
  rfl

end

/-- Two doses of a contactor that qualify, and their runs. -/
example : (0:ℝ) < 20 ∧ (20:ℝ) < 40 ∧ (40:ℝ) < exPac.dw * 1e6 ∧ (0:ℝ) < (exPac.comp 0).C0 ∧ (0:ℝ) < exPac.radius ∧
    Spec.PacPhysical (({ exPac with dosage := 20 } : Pac 1).update) 0 := by
  have hdw : exPac.dw * 1e6 = 1e6 := by
    show (1:ℝ) * 1e6 = 1e6
    norm_num
  refine ⟨by norm_num, by norm_num, by rw [hdw]; norm_num, ?_, (exPac_physical 0).radius, ?_⟩
  · show (0:ℝ) < 4; norm_num
  · have h := exPac_physical 0
    refine ⟨?_, h.radius, h.density, h.porosity, h.K, h.xni, h.kf, h.Ds⟩
    show 0 < 1 - 20 / (exPac.dw * 1e6) ∧ 1 - 20 / (exPac.dw * 1e6) < 1
    rw [hdw]; norm_num

end WTM
