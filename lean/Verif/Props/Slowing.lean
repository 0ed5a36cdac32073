import Verif.Lemmas.Decay
import Verif.Props.Ahead
import Verif.Props.IexScale

/-! C246, C247: where the isotherm is a straight line the approach to equilibrium slows down, and a stronger water is cleaned to a smaller
share. -/
set_option autoImplicit false
namespace WTM
open BigOperators Set Topology Filter

/-- Of what is in excess at a time, a larger share is still there after a further `τ` if the time is later. -/
def Spec.Slowing (E : ℝ → ℝ) : Prop := ∀ s t τ, 0 ≤ s → s ≤ t → 0 ≤ τ → E (s + τ) * E t ≤ E s * E (t + τ)

theorem slowing_of_convex {E : ℝ → ℝ} (hpos : ∀ t ≥ 0, 0 < E t) (hc : ConvexOn ℝ (Ici 0) fun t => Real.log (E t)) : Spec.Slowing E := by
  intro s t τ hs hst hτ
  have ht := hs.trans hst
  rcases eq_or_lt_of_le (add_nonneg (sub_nonneg.2 hst) hτ) with h0 | h0
  · have e1 : t = s := by linarith
    have e2 : τ = 0 := by linarith
    subst e1 e2
    exact le_of_eq (by rw [add_zero])
  · set d := t - s + τ with hd
    have hsum : (t - s) / d + τ / d = 1 := by rw [← add_div]; exact div_self h0.ne'
    have hw1 : 0 ≤ (t - s) / d := div_nonneg (sub_nonneg.2 hst) h0.le
    have hw2 : 0 ≤ τ / d := div_nonneg hτ h0.le
    have h1 := hc.2 (mem_Ici.2 hs) (mem_Ici.2 (by linarith : 0 ≤ t + τ)) hw1 hw2 hsum
    have h2 := hc.2 (mem_Ici.2 hs) (mem_Ici.2 (by linarith : 0 ≤ t + τ)) hw2 hw1 (by rw [add_comm]; exact hsum)
    have e1 : ((t - s) / d) • s + (τ / d) • (t + τ) = s + τ := by
      simp only [smul_eq_mul]
      have : t + τ = s + d := by rw [hd]; ring
      rw [this]
      have : (t - s) / d * s + τ / d * (s + d) = ((t - s) / d + τ / d) * s + τ / d * d := by ring
      rw [this, hsum, div_mul_cancel₀ _ h0.ne']; ring
    have e2 : (τ / d) • s + ((t - s) / d) • (t + τ) = t := by
      simp only [smul_eq_mul]
      have : t + τ = s + d := by rw [hd]; ring
      rw [this]
      have : τ / d * s + (t - s) / d * (s + d) = ((t - s) / d + τ / d) * s + (t - s) / d * d := by ring
      rw [this, hsum, div_mul_cancel₀ _ h0.ne']; ring
    rw [e1] at h1
    rw [e2] at h2
    simp only [smul_eq_mul] at h1 h2
    have p1 := hpos (s + τ) (by linarith)
    have p2 := hpos t ht
    have p3 := hpos s hs
    have p4 := hpos (t + τ) (by linarith)
    rw [← Real.log_le_log_iff (mul_pos p1 p2) (mul_pos p3 p4), Real.log_mul p1.ne' p2.ne', Real.log_mul p3.ne' p4.ne']
    have e3 : (t - s) / d * Real.log (E s) + τ / d * Real.log (E (t + τ)) +
        (τ / d * Real.log (E s) + (t - s) / d * Real.log (E (t + τ))) =
        ((t - s) / d + τ / d) * (Real.log (E s) + Real.log (E (t + τ))) := by ring
    rw [hsum, one_mul] at e3
    linarith

/-- C246. What this means for someone who extrapolates: at equal steps at least the power of the first share remains, half of what is
left takes longer each time, and the fall from one step to the next gets smaller. -/
theorem c246_meaning {E : ℝ → ℝ} (hE : Spec.Slowing E) (hpos : ∀ t ≥ 0, 0 < E t) (hanti : StrictAntiOn E (Ici 0)) :
    (∀ τ ≥ 0, ∀ n : ℕ, E 0 * (E τ / E 0) ^ n ≤ E (n * τ)) ∧
    (∀ s t σ τ ρ, 0 ≤ s → s ≤ t → 0 ≤ σ → 0 ≤ τ → 0 < ρ → E (s + σ) = ρ * E s → E (t + τ) = ρ * E t → σ ≤ τ) ∧
    ∀ s t τ, 0 ≤ s → s ≤ t → 0 ≤ τ → E t - E (t + τ) ≤ E s - E (s + τ) := by
  refine ⟨fun τ hτ n => ?_, fun s t σ τ ρ hs hst hσ hτ hρ h1 h2 => ?_, fun s t τ hs hst hτ => ?_⟩
  · have p0 := hpos 0 le_rfl
    induction n with
    | zero => simp
    | succ n ih =>
      have hn : (0:ℝ) ≤ n * τ := by positivity
      have h := hE 0 (n * τ) τ le_rfl hn hτ
      rw [zero_add] at h
      have e : ((n + 1 : ℕ) : ℝ) * τ = n * τ + τ := by push_cast; ring
      rw [e, pow_succ, ← mul_assoc]
      calc E 0 * (E τ / E 0) ^ n * (E τ / E 0) ≤ E (n * τ) * (E τ / E 0) :=
            mul_le_mul_of_nonneg_right ih (div_nonneg (hpos τ hτ).le p0.le)
        _ = E τ * E (n * τ) / E 0 := by ring
        _ ≤ E (n * τ + τ) := by rw [div_le_iff₀ p0]; linarith
  · by_contra hlt
    have hlt := not_le.1 hlt
    have p1 := hpos s hs
    have p2 := hpos t (hs.trans hst)
    have h3 := hE s t σ hs hst hσ
    rw [h1] at h3
    have h4 : E (t + σ) < E (t + τ) := hanti (mem_Ici.2 (by linarith)) (mem_Ici.2 (by linarith)) (by linarith)
    rw [h2] at h4
    have h5 := mul_lt_mul_of_pos_left h4 p1
    nlinarith
  · have p1 := hpos s hs
    have h3 := hE s t τ hs hst hτ
    have h4 : E t ≤ E s := hanti.antitoneOn hs (hs.trans hst) hst
    have h5 : E (s + τ) ≤ E s := hanti.antitoneOn hs (mem_Ici.2 (by linarith)) (by linarith)
    have h6 : (E t - E (t + τ)) * E s ≤ (E s - E (s + τ)) * E t := by nlinarith
    have h7 : (E s - E (s + τ)) * E t ≤ (E s - E (s + τ)) * E s := mul_le_mul_of_nonneg_left h4 (by linarith)
    exact le_of_mul_le_mul_right (h6.trans h7) p1

section
variable {m nd : ℕ} {jac : Fin nd → ℝ} {B : Fin (nd + 1) → Fin (nd + 1) → ℝ} {W : Fin (nd + 1) → ℝ}

/-- C246. A compound with exponent one in a powdered carbon contactor that meets the isotherm at the surface only: what the water holds
above the concentration of the end falls, stays positive and falls ever more slowly. -/
theorem c246_pac (p : Pac m) {i : Fin m} (hp : Spec.PacPhysical p i) (hs : Spec.SurfaceOnly nd p i) (g : Spec.BeadGrid jac B W)
    (hx : (p.comp i).xni = 1) (hC : 0 < (p.comp i).C0) {y : ℝ → PacY nd m} (hy : Spec.PacRun p B W y) (h0 : y 0 = pacInit) {c : ℝ}
    (hc : p.epsilon * c + (1 - p.epsilon) * (p.density * 1000 * ((p.comp i).K * c)) = p.epsilon) :
    StrictAntiOn (fun t => (p.comp i).C0 * (y t).2 i - (p.comp i).C0 * c) (Ici 0) ∧
      (∀ t ≥ 0, 0 < (p.comp i).C0 * (y t).2 i - (p.comp i).C0 * c) ∧
      Spec.Slowing fun t => (p.comp i).C0 * (y t).2 i - (p.comp i).C0 * c := by
  have hk := pac_consts hp
  have hv := pacRun_view hy i
  rw [pac_surface hs] at hv
  obtain ⟨f1, -, f3⟩ := c243_falls p hp hs g hy h0
  have hE := hp.eps.1
  have hE1 := sub_pos.2 hp.eps.2
  have hK := hp.K
  have hd := hp.density
  have hρ : 0 < p.rho * (p.comp i).K := by unfold Pac.rho; positivity
  have ha : 0 < 1 / (p.rho * (p.comp i).K) := one_div_pos.2 hρ
  have hW3 : ∑ k, W k = 1 / 3 := by
    rw [g.weights]
    exact (c17_positive_sum (Nat.succ_pos nd) (radialNodes_inj g.zeros.1 (fun i => (g.zeros.2.1 i).2))
      (radialNodes_pos (fun i => (g.zeros.2.1 i).1)) (by norm_num : (0:ℝ) < 3)).2
  have hlin : ∀ q, 0 ≤ q → pacK p i q = 1 / (p.rho * (p.comp i).K) * q := by
    intro q hq
    unfold pacK
    rw [hx, div_div, max_eq_left (div_nonneg hq hρ.le), div_one, Real.rpow_one]
    ring
  have hsurf : ∀ t ≥ 0, 0 ≤ (pacView i (y t)).1 (Fin.last nd) := by
    intro t ht
    rcases ht.eq_or_lt with h | h
    · rw [← h, h0]; exact le_rfl
    · exact (f3 t h).le
  have hrun : ∀ T, ∀ t ∈ Icc 0 T, HasDerivWithinAt (fun t => pacView i (y t)) (tankRhs (fun q => 1 / (p.rho * (p.comp i).K) * q) 0
      (pacBe p i) ((p.comp i).kf / p.radius) (pacMu p) B W (pacView i (y t))) (Icc 0 T) t := by
    intro T t ht
    have h1 := (hv t ht.1).mono (Icc_subset_Ici_self : Icc 0 T ⊆ Ici 0)
    have e : tankRhs (pacK p i) 0 (pacBe p i) ((p.comp i).kf / p.radius) (pacMu p) B W (pacView i (y t)) =
        tankRhs (fun q => 1 / (p.rho * (p.comp i).K) * q) 0 (pacBe p i) ((p.comp i).kf / p.radius) (pacMu p) B W (pacView i (y t)) := by
      unfold tankRhs tankPsi
      simp only [zero_mul, hlin _ (hsurf t ht.1)]
    rw [← e]
    exact h1
  have hce : c * (1 + pacMu p * (∑ k, W k) / (1 / (p.rho * (p.comp i).K))) = 1 := by
    rw [hW3]
    unfold pacMu Pac.rho
    field_simp
    linarith
  obtain ⟨g1, g2⟩ := tank_excess g ha hk.2.2.2 one_pos hce hrun (fun k => by rw [h0]; rfl) (by rw [h0]; rfl)
  have hpos : ∀ t ≥ 0, 0 < (y t).2 i - c := fun t ht => sub_pos.2 (g1 t ht)
  have hsl : Spec.Slowing fun t => (y t).2 i - c := slowing_of_convex hpos g2
  have e : ∀ t, (p.comp i).C0 * (y t).2 i - (p.comp i).C0 * c = (p.comp i).C0 * ((y t).2 i - c) := fun t => by ring
  simp only [e]
  refine ⟨fun s hs t ht hst => mul_lt_mul_of_pos_left (sub_lt_sub_right (f1 hs ht hst) c) hC, fun t ht => mul_pos hC (hpos t ht), ?_⟩
  intro s t τ h1 h2 h3
  have := mul_le_mul_of_nonneg_left (hsl s t τ h1 h2 h3) (mul_pos hC hC).le
  linarith

end

section
variable {r p : ℕ} {jac : Fin r → ℝ}

/-- C246. Without selectivity, every ion of the water but the presaturant, in each of the two batch models. -/
theorem c246_batch {P : BatchParams r p} (h : Spec.Contactor P jac) (hK : ∀ i, P.K i = 1) (m : BatchModel) {i : Fin (p + 1)} (hi : i ≠ 0)
    (hc : 0 < P.C0 i) {y : ℝ → BatchState r p} (hy : m.RunsOn P y) (h0 : y 0 = batchInit P) :
    StrictAntiOn (fun t => y t 0 i - P.C0 i * (P.VL * ∑ j, P.C0 j) / (P.VL * ∑ j, P.C0 j + P.VR * (P.RHOP * P.Qm))) (Ici 0) ∧
      (∀ t ≥ 0, 0 < y t 0 i - P.C0 i * (P.VL * ∑ j, P.C0 j) / (P.VL * ∑ j, P.C0 j + P.VR * (P.RHOP * P.Qm))) ∧
      Spec.Slowing fun t => y t 0 i - P.C0 i * (P.VL * ∑ j, P.C0 j) / (P.VL * ∑ j, P.C0 j + P.VR * (P.RHOP * P.Qm)) := by
  obtain ⟨z, -, -, huniq, -, hT, -, hst, hf⟩ := equal_tank h hK m
  have hyz : ∀ t ≥ 0, y t 0 i = (ionPart (z t) i).2 := fun t ht => by
    rw [huniq t y (hy t) h0 t ⟨ht, le_rfl⟩]
    rfl
  have hQ := h.resin
  have hCT := h.total
  obtain ⟨hVR, hVL⟩ := h.vol
  have hW3 : ∑ k, P.Wr k = 1 / 3 := by
    rw [h.grid.weights]
    exact (c17_positive_sum (Nat.succ_pos r) (radialNodes_inj h.grid.zeros.1 (fun i => (h.grid.zeros.2.1 i).2))
      (radialNodes_pos (fun i => (h.grid.zeros.2.1 i).1)) (by norm_num : (0:ℝ) < 3)).2
  set Q := P.RHOP * P.Qm with hQd
  set CT := ∑ j, P.C0 j with hCTd
  set ce := P.C0 i * (P.VL * CT) / (P.VL * CT + P.VR * Q) with hce
  have he : ce * (1 + 3 * P.VR / P.VL * (∑ k, P.Wr k) / (CT / Q)) = P.C0 i := by
    rw [hW3, hce]
    have : 0 < P.VL * CT + P.VR * Q := by positivity
    field_simp
  obtain ⟨g1, g2⟩ := tank_excess h.grid (div_pos hCT hQ) h.mu hc he (fun T => hT i T) (hst i hi).1 (hst i hi).2
  have hpos : ∀ t ≥ 0, 0 < (ionPart (z t) i).2 - ce := fun t ht => sub_pos.2 (g1 t ht)
  have hsl : Spec.Slowing fun t => (ionPart (z t) i).2 - ce := slowing_of_convex hpos g2
  refine ⟨fun s hs t ht hst => ?_, fun t ht => by rw [hyz t ht]; exact hpos t ht, fun s t τ h1 h2 h3 => ?_⟩
  · show y t 0 i - ce < y s 0 i - ce
    rw [hyz s hs, hyz t ht]
    exact sub_lt_sub_right ((hf i hi hc t).1 ⟨hs, hst.le⟩ ⟨ht, le_rfl⟩ hst) ce
  · show (y (s + τ) 0 i - ce) * (y t 0 i - ce) ≤ (y s 0 i - ce) * (y (t + τ) 0 i - ce)
    rw [hyz _ (add_nonneg h1 h3), hyz t (h1.trans h2), hyz s h1, hyz _ (add_nonneg (h1.trans h2) h3)]
    exact hsl s t τ h1 h2 h3

end

/-! ### Stronger water -/

section
variable {r p : ℕ} {jac jac' : Fin r → ℝ}

/-- The same vessel with water of `k` times the concentration. -/
def Spec.stronger (P : BatchParams r p) (k : ℝ) : BatchParams r p := { P with C0 := fun i => k * P.C0 i }

theorem stronger_less {P : BatchParams r p} {k : ℝ} (hk : 0 < k) :
    Spec.rescaleB (Spec.stronger P k) 1 1 (1 / k) = { P with Qm := P.Qm / k } := by
  unfold Spec.rescaleB Spec.stronger
  have e : (fun i => 1 / k * (k * P.C0 i)) = P.C0 := funext fun i => by field_simp
  simp only [one_pow, one_mul, div_one, e]
  congr 1
  ring

theorem less_contactor {P : BatchParams r p} (h : Spec.Contactor P jac) {k : ℝ} (hk : 0 < k) :
    Spec.Contactor { P with Qm := P.Qm / k } jac := by
  refine ⟨h.grid, ?_, h.por, h.vol, h.diff, h.film, h.conc, h.total, h.mono⟩
  show 0 < P.RHOP * (P.Qm / k)
  rw [← mul_div_assoc]
  exact div_pos h.resin hk

/-- C247. Two monovalent ions in the homogeneous model: water of `k > 1` times the concentration keeps more than `k` times as much
of the second ion at every time after the start. -/
theorem c247_two {P : BatchParams r 1} (h : Spec.Contactor P jac) (hk0 : P.K 0 = 1) (hK : 0 < P.K 1) (hc : 0 < P.C0 1) {k : ℝ} (hk : 1 < k)
    {T : ℝ} {y y' : ℝ → BatchState r 1} (hy : BatchModel.hsdm.Runs P 0 T y) (h0 : y 0 = batchInit P)
    (hy' : BatchModel.hsdm.Runs (Spec.stronger P k) 0 T y') (h0' : y' 0 = batchInit (Spec.stronger P k)) :
    ∀ t ∈ Ioc 0 T, k * y t 0 1 < y' t 0 1 := by
  have hkp : 0 < k := one_pos.trans hk
  have hs := c218_batch_runs .hsdm (Spec.stronger P k) (lam := 1) (th := 1) (ka := 1 / k) one_ne_zero one_pos (one_div_pos.2 hkp).ne' h0' hy'
  simp only [stronger_less hkp, div_one, one_mul] at hs
  have hlt : P.RHOP * (P.Qm / k) < P.RHOP * P.Qm := by
    rw [← mul_div_assoc]
    exact div_lt_self h.resin hk
  intro t ht
  have := (c245_two (less_contactor h hkp) h hk0 hk0 hK ⟨rfl, ⟨rfl, rfl⟩, le_rfl, le_rfl⟩ le_rfl hlt.le le_rfl hc hs.2 hs.1 hy h0).2
    (Or.inr (Or.inr (Or.inr (Or.inl hlt)))) t ht
  rw [one_div, inv_mul_eq_div, lt_div_iff₀ hkp] at this
  linarith

/-- C247. The same without selectivity for every ion but the presaturant and any number of ions; in the model with pores as far as
diffusion there is not faster. -/
theorem c247_equal {P : BatchParams r p} (h : Spec.Contactor P jac) (hK : ∀ i, P.K i = 1) (m : BatchModel)
    (hm : m = .hsdm ∨ P.EPOR = 0 ∨ P.Dp = P.Ds) {i : Fin (p + 1)} (hi : i ≠ 0)
    (hc : 0 < P.C0 i) {k : ℝ} (hk : 1 < k) {T : ℝ} {y y' : ℝ → BatchState r p} (hy : m.Runs P 0 T y) (h0 : y 0 = batchInit P)
    (hy' : m.Runs (Spec.stronger P k) 0 T y') (h0' : y' 0 = batchInit (Spec.stronger P k)) :
    ∀ t ∈ Ioc 0 T, k * y t 0 i < y' t 0 i := by
  have hkp : 0 < k := one_pos.trans hk
  have hs := c218_batch_runs m (Spec.stronger P k) (lam := 1) (th := 1) (ka := 1 / k) one_ne_zero one_pos (one_div_pos.2 hkp).ne' h0' hy'
  simp only [stronger_less hkp, div_one, one_mul] at hs
  have hlt : P.RHOP * (P.Qm / k) < P.RHOP * P.Qm := by
    rw [← mul_div_assoc]
    exact div_lt_self h.resin hk
  have hpore : ∀ P' : BatchParams r p, P'.EPOR = P.EPOR → P'.Dp = P.Dp → P'.Ds = P.Ds → m.pore P' = 0 := by
    intro P' e1 e2 e3
    rcases hm with hm | hm | hm
    · rw [hm]; rfl
    · cases m
      · rfl
      · show P'.EPOR * (P'.Dp - P'.Ds) / P'.rb ^ 2 = 0
        rw [e1, hm]; ring
    · cases m
      · rfl
      · show P'.EPOR * (P'.Dp - P'.Ds) / P'.rb ^ 2 = 0
        rw [e2, e3, hm]; ring
  have hD : Spec.diffRate m { P with Qm := P.Qm / k } ≤ Spec.diffRate m P := by
    unfold Spec.diffRate
    rw [hpore P rfl rfl rfl, hpore { P with Qm := P.Qm / k } rfl rfl rfl, zero_mul, zero_mul]
  intro t ht
  have := (c245_equal (less_contactor h hkp) h hK hK m m ⟨rfl, ⟨rfl, rfl⟩, le_rfl, le_rfl⟩ hD hlt.le hi hc hs.2 hs.1 hy h0).2
    (Or.inr (Or.inr (Or.inr hlt))) t ht
  rw [one_div, inv_mul_eq_div, lt_div_iff₀ hkp] at this
  linarith

/-! ### One curve for all ions -/

/-- C248. Without selectivity: on the same resin, from waters of the same total concentration, every ion but the presaturant has the same
share of its start in the water, and per unit of its start the same loading at every bead point, at every time. -/
theorem c248_share {P P' : BatchParams r p} (h : Spec.Contactor P jac) (hK : ∀ i, P.K i = 1) (m : BatchModel)
    (hP : P' = { P with C0 := P'.C0 }) (h0' : ∀ i, 0 ≤ P'.C0 i) (htot : ∑ i, P'.C0 i = ∑ i, P.C0 i) {i j : Fin (p + 1)} (hi : i ≠ 0) (hj : j ≠ 0)
    {T : ℝ} {y y' : ℝ → BatchState r p} (hy : m.Runs P 0 T y) (hy0 : y 0 = batchInit P) (hy' : m.Runs P' 0 T y') (hy0' : y' 0 = batchInit P') :
    ∀ t ∈ Icc 0 T, ∀ a, P'.C0 j * y t a i = P.C0 i * y' t a j := by
  have h' : Spec.Contactor P' jac := by
    rw [hP]
    exact ⟨h.grid, h.resin, h.por, h.vol, h.diff, h.film, h0', by
      show 0 < ∑ i, P'.C0 i
      rw [htot]; exact h.total, h.mono⟩
  have hK' : ∀ i, P'.K i = 1 := fun i => by rw [hP]; exact hK i
  obtain ⟨z, -, -, huniq, -, hT, -, hst, -⟩ := equal_tank h hK m
  obtain ⟨z', -, -, huniq', -, hT', -, hst', -⟩ := equal_tank h' hK' m
  have hr := hT i T
  have hr' := hT' j T
  have e1 : P'.RHOP = P.RHOP ∧ P'.Qm = P.Qm ∧ P'.kL = P.kL ∧ P'.rb = P.rb ∧ P'.VR = P.VR ∧ P'.VL = P.VL ∧ P'.Br = P.Br ∧ P'.Wr = P.Wr := by
    rw [hP]; exact ⟨rfl, rfl, rfl, rfl, rfl, rfl, rfl, rfl⟩
  have e2 : Spec.diffRate m P' = Spec.diffRate m P := by
    have : m.pore P' = m.pore P := by rw [hP]; cases m <;> rfl
    unfold Spec.diffRate
    rw [htot, this, e1.1, e1.2.1, e1.2.2.2.1]
    congr 1
    rw [hP]
  rw [e2, htot, e1.1, e1.2.1, e1.2.2.1, e1.2.2.2.1, e1.2.2.2.2.1, e1.2.2.2.2.2.1, e1.2.2.2.2.2.2.1, e1.2.2.2.2.2.2.2] at hr'
  set L := tankCL ((∑ i, P.C0 i) / (P.RHOP * P.Qm)) (Spec.diffRate m P) (P.kL / P.rb) (3 * P.VR / P.VL) P.Br P.Wr with hL
  have hlip : LocallyLipschitz (fun u => L u) := L.lipschitz.locallyLipschitz
  have hs := hst i hi
  have hs' := hst' j hj
  have key := unique_auto (y1 := fun t => P'.C0 j • ionPart (z t) i) (y2 := fun t => P.C0 i • ionPart (z' t) j) (a := 0) (b := T) hlip
    (fun t ht => by rw [map_smul]; exact (hr t ht).const_smul (P'.C0 j))
    (fun t ht => by rw [map_smul]; exact (hr' t ht).const_smul (P.C0 i))
    (Prod.ext (funext fun k => by
      show P'.C0 j * (ionPart (z 0) i).1 k = P.C0 i * (ionPart (z' 0) j).1 k
      rw [hs.1, hs'.1]; ring) (by
      show P'.C0 j * (ionPart (z 0) i).2 = P.C0 i * (ionPart (z' 0) j).2
      rw [hs.2, hs'.2]; ring))
  intro t ht a
  rw [huniq T y hy hy0 t ht, huniq' T y' hy' hy0' t ht]
  induction a using Fin.cases with
  | zero => exact congrArg Prod.snd (key t ht)
  | succ k => exact congrFun (congrArg Prod.fst (key t ht)) k

end

/-! ### What the curve of a powdered carbon contactor depends on -/

section
variable {m m' nd : ℕ}

/-- Transfer in the second contactor is `θ` times as fast, the carbon holds as much and there is as much of it. -/
structure Spec.PacSimilar (θ : ℝ) (p : Pac m) (i : Fin m) (p' : Pac m') (i' : Fin m') : Prop where
  carbon : p'.epsilon = p.epsilon
  film : (p'.comp i').kf / p'.radius = θ * ((p.comp i).kf / p.radius)
  surface : (p'.comp i').Ds / p'.radius ^ 2 = θ * ((p.comp i).Ds / p.radius ^ 2)
  pores : p'.porosity * ((p'.comp i').Dp - (p'.comp i').Ds) / p'.radius ^ 2 =
    θ * (p.porosity * ((p.comp i).Dp - (p.comp i).Ds) / p.radius ^ 2)
  capacity : p'.density * (p'.comp i').K = p.density * (p.comp i).K
  exponent : (p'.comp i').xni = (p.comp i).xni

theorem tankRhs_faster {r : ℕ} {κ : ℝ → ℝ} {α β f μ : ℝ} (θ : ℝ) (B : Fin (r + 1) → Fin (r + 1) → ℝ) (W : Fin (r + 1) → ℝ)
    (u : (Fin (r + 1) → ℝ) × ℝ) : tankRhs κ (θ * α) (θ * β) (θ * f) μ B W u = θ • tankRhs κ α β f μ B W u := by
  have e : ∀ k, ∑ l, B k l * tankPsi κ (θ * α) (θ * β) (u.1 l) = θ * ∑ l, B k l * tankPsi κ α β (u.1 l) := by
    intro k
    rw [Finset.mul_sum]
    exact Finset.sum_congr rfl fun l _ => by unfold tankPsi; ring
  refine Prod.ext (funext fun k => ?_) ?_
  · simp only [tankRhs, e, Prod.smul_fst, Pi.smul_apply, smul_eq_mul]
    have e2 : ∑ j : Fin r, W j.castSucc * (θ * ∑ l, B j.castSucc l * tankPsi κ α β (u.1 l)) =
        θ * ∑ j : Fin r, W j.castSucc * ∑ l, B j.castSucc l * tankPsi κ α β (u.1 l) := by
      rw [Finset.mul_sum]
      exact Finset.sum_congr rfl fun j _ => by ring
    rw [e2]
    split <;> ring
  · simp only [tankRhs, Prod.smul_snd, smul_eq_mul]
    ring

/-- C249. Then the two runs are the same, the second `θ` times as fast: same share of the influent in the water, same loadings. The
concentration of the influent, the number of compounds and the size of the particles have no other influence. -/
theorem c249_similar {p : Pac m} {p' : Pac m'} {i : Fin m} {i' : Fin m'} {θ : ℝ} (hθ : 0 < θ) (h : Spec.PacSimilar θ p i p' i')
    (hx : 0 < (p.comp i).xni ∧ (p.comp i).xni ≤ 1) (B : Fin (nd + 1) → Fin (nd + 1) → ℝ) (W : Fin (nd + 1) → ℝ) {y : ℝ → PacY nd m}
    {y' : ℝ → PacY nd m'} (hy : Spec.PacRun p B W y) (h0 : y 0 = pacInit) (hy' : Spec.PacRun p' B W y') (h0' : y' 0 = pacInit) :
    ∀ t ≥ 0, (y' t).2 i' = (y (θ * t)).2 i ∧ ∀ k, (y' t).1 k i' = (y (θ * t)).1 k i := by
  have hv := pacRun_view hy i
  have hv' := pacRun_view hy' i'
  have eK : pacK p' i' = pacK p i := by
    funext q
    unfold pacK Pac.rho
    rw [h.exponent, div_div, div_div, mul_right_comm p'.density, h.capacity, mul_right_comm p.density]
  have eA : pacAl p' i' = θ * pacAl p i := h.pores
  have eB : pacBe p' i' = θ * pacBe p i := h.surface
  have eM : pacMu p' = pacMu p := by unfold pacMu; rw [h.carbon]
  rw [eK, eA, eB, eM, h.film] at hv'
  have hlip : LocallyLipschitz (pacK p i) := by
    unfold pacK
    have hid : LocallyLipschitz fun q : ℝ => q := LocallyLipschitz.id
    exact lip_rpow ((one_le_div hx.1).2 hx.2) ((lip_div (lip_div hid _) _).max_const 0)
  intro t ht
  have key := unique_auto (y1 := fun t => pacView i' (y' t)) (y2 := fun t => pacView i (y (θ * t))) (a := 0) (b := t)
    (rhs_lip (α := θ * pacAl p i) (β := θ * pacBe p i) (f := θ * ((p.comp i).kf / p.radius)) (μ := pacMu p) hlip B W)
    (fun s hs => (hv' s hs.1).mono Icc_subset_Ici_self)
    (fun s hs => by
      rw [tankRhs_faster]
      have h1 : HasDerivWithinAt (fun s : ℝ => θ * s) θ (Icc 0 t) s := by
        have := (hasDerivWithinAt_id s (Icc 0 t)).const_mul θ
        rwa [mul_one] at this
      exact HasDerivWithinAt.scomp s (hv (θ * s) (mul_nonneg hθ.le hs.1)) h1 fun x hx => mul_nonneg hθ.le hx.1)
    (by simp only [mul_zero]; rw [h0, h0']; rfl) t ⟨ht, le_rfl⟩
  exact ⟨congrArg Prod.snd key, fun k => congrFun (congrArg Prod.fst key) k⟩

/-- C249. Particles `k` times as large with film coefficients `k` times and diffusivities `k * k` times as large are similar with the same
speed, whatever the influent. -/
theorem c249_size (p : Pac m) (i : Fin m) {k : ℝ} (hk : 0 < k) (C0 : ℝ) :
    Spec.PacSimilar 1 p i { p with radius := k * p.radius, comp := fun j => { p.comp j with
      kf := k * (p.comp j).kf, Ds := k ^ 2 * (p.comp j).Ds, Dp := k ^ 2 * (p.comp j).Dp, C0 := C0 } } i := by
  have hk2 : k ^ 2 ≠ 0 := by positivity
  refine ⟨rfl, ?_, ?_, ?_, rfl, rfl⟩ <;> simp only [mul_pow, one_mul]
  · exact mul_div_mul_left _ _ hk.ne'
  · exact mul_div_mul_left _ _ hk2
  · rw [← mul_sub, mul_left_comm]
    exact mul_div_mul_left _ _ hk2

end

/-! ### Examples -/

/-- A contactor without pores and with exponent one, any number of radial points. -/
example (nd : ℕ) : ∃ (p : Pac 1) (jac : Fin nd → ℝ) (B : Fin (nd + 1) → Fin (nd + 1) → ℝ) (W : Fin (nd + 1) → ℝ) (y : ℝ → PacY nd 1) (c : ℝ),
    Spec.PacPhysical p 0 ∧ Spec.SurfaceOnly nd p 0 ∧ Spec.BeadGrid jac B W ∧ (p.comp 0).xni = 1 ∧ 0 < (p.comp 0).C0 ∧ Spec.PacRun p B W y ∧
    y 0 = pacInit ∧ p.epsilon * c + (1 - p.epsilon) * (p.density * 1000 * ((p.comp 0).K * c)) = p.epsilon := by
  let p : Pac 1 := { exPac with porosity := 0, comp := fun i => { exPac.comp i with xni := 1 } }
  have hp : ∀ i, Spec.PacPhysical p i := fun i =>
    ⟨(exPac_physical i).eps, (exPac_physical i).radius, (exPac_physical i).density, le_rfl, (exPac_physical i).K,
      ⟨one_pos, le_rfl⟩, (exPac_physical i).kf, (exPac_physical i).Ds⟩
  obtain ⟨jac, B, W, g⟩ := beadGrid_exists nd
  obtain ⟨y, h0, hy, -⟩ := c212_global _ hp g (pacInit : PacY nd 1) fun _ => zero_le_one
  have hd : p.epsilon + (1 - p.epsilon) * (p.density * 1000 * (p.comp 0).K) ≠ 0 := by
    have h1 := (hp 0).eps.1
    have h2 := sub_pos.2 (hp 0).eps.2
    have h3 := (hp 0).density
    have h4 := (hp 0).K
    positivity
  refine ⟨p, jac, B, W, y, p.epsilon / (p.epsilon + (1 - p.epsilon) * (p.density * 1000 * (p.comp 0).K)), hp 0, Or.inr (Or.inl rfl), g, rfl,
    show (0:ℝ) < 4 by norm_num, hy, h0, ?_⟩
  have e : ∀ x : ℝ, p.epsilon * x + (1 - p.epsilon) * (p.density * 1000 * ((p.comp 0).K * x)) =
      x * (p.epsilon + (1 - p.epsilon) * (p.density * 1000 * (p.comp 0).K)) := fun x => by ring
  rw [e, div_mul_cancel₀ _ hd]

/-- Water and water of twice its strength on a resin of selectivity 3, three bead points. -/
example : ∃ (jac : Fin 2 → ℝ) (P : BatchParams 2 1) (y y' : ℝ → BatchState 2 1), Spec.Contactor P jac ∧ P.K 0 = 1 ∧ P.K 1 = 3 ∧ 0 < P.C0 1 ∧
    BatchModel.hsdm.RunsOn P y ∧ y 0 = batchInit P ∧ BatchModel.hsdm.RunsOn (Spec.stronger P 2) y' ∧ y' 0 = batchInit (Spec.stronger P 2) := by
  obtain ⟨jac, B, W, g⟩ := beadGrid_exists 2
  let P : BatchParams 2 1 := ⟨1, 5, 1 / 2, 1, 100, 1, 2, 1, 1 / 10, ![1, 2], ![1, 3], fun _ => 1, B, W⟩
  have h : ∀ k, 0 < k → Spec.Contactor (Spec.stronger P k) jac := by
    intro k hk
    have h1 : ∀ i, 0 < P.C0 i := fun i => by fin_cases i <;> norm_num [P]
    refine ⟨g, by norm_num [P, Spec.stronger], by norm_num [P, Spec.stronger], by norm_num [P, Spec.stronger], by norm_num [P, Spec.stronger],
      by norm_num [P, Spec.stronger], fun i => (mul_pos hk (h1 i)).le, ?_, fun _ => rfl⟩
    exact Finset.sum_pos (fun i _ => mul_pos hk (h1 i)) Finset.univ_nonempty
  have e : Spec.stronger P 1 = P := by
    unfold Spec.stronger
    simp only [one_mul]
  have hP : Spec.Contactor P jac := e ▸ h 1 one_pos
  have hk : 0 < P.K 1 := by norm_num [P]
  obtain ⟨y, h0, hy, -⟩ := c220_hsdm hP rfl hk
  obtain ⟨y', h0', hy', -⟩ := c220_hsdm (h 2 two_pos) rfl hk
  exact ⟨jac, P, y, y', hP, rfl, rfl, by norm_num [P], hy, h0, hy', h0'⟩

/-- Two waters of three ions with the same total, without selectivity, three bead points with pores. -/
example (m : BatchModel) : ∃ (jac : Fin 2 → ℝ) (P P' : BatchParams 2 2) (y y' : ℝ → BatchState 2 2), Spec.Contactor P jac ∧ (∀ i, P.K i = 1) ∧
    P' = { P with C0 := P'.C0 } ∧ (∀ i, 0 ≤ P'.C0 i) ∧ ∑ i, P'.C0 i = ∑ i, P.C0 i ∧ P.C0 1 ≠ P'.C0 1 ∧ m.RunsOn P y ∧ y 0 = batchInit P ∧
    m.RunsOn P' y' ∧ y' 0 = batchInit P' := by
  obtain ⟨jac, B, W, g⟩ := beadGrid_exists 2
  let P : (Fin 3 → ℝ) → BatchParams 2 2 := fun c => ⟨1, 5, 1 / 2, 1, 100, 1, 2, 1, 1 / 10, c, fun _ => 1, fun _ => 1, B, W⟩
  have h : ∀ c : Fin 3 → ℝ, (∀ i, 0 < c i) → Spec.Contactor (P c) jac := by
    intro c hc
    exact ⟨g, by norm_num [P], by norm_num [P], by norm_num [P], by norm_num [P], by norm_num [P], fun i => (hc i).le,
      Finset.sum_pos (fun i _ => hc i) Finset.univ_nonempty, fun _ => rfl⟩
  have c1 : ∀ i, 0 < (![1, 2, 3] : Fin 3 → ℝ) i := fun i => by fin_cases i <;> norm_num
  have c2 : ∀ i, 0 < (![2, 3, 1] : Fin 3 → ℝ) i := fun i => by fin_cases i <;> norm_num
  obtain ⟨z, h0, hz, -⟩ := equal_tank (h _ c1) (fun _ => rfl) m
  obtain ⟨z', h0', hz', -⟩ := equal_tank (h _ c2) (fun _ => rfl) m
  refine ⟨jac, P ![1, 2, 3], P ![2, 3, 1], z, z', h _ c1, fun _ => rfl, rfl, fun i => (c2 i).le, ?_, ?_, hz, h0, hz', h0'⟩
  · have e1 : ∑ i, (P ![2, 3, 1]).C0 i = 2 + 3 + 1 := Fin.sum_univ_three _
    have e2 : ∑ i, (P ![1, 2, 3]).C0 i = 1 + 2 + 3 := Fin.sum_univ_three _
    rw [e1, e2]
    norm_num
  · show (2:ℝ) ≠ 3
    norm_num

/-- Large particles with faster transfer beside the small ones. -/
example : ∃ (p p' : Pac 1), Spec.PacSimilar 1 p 0 p' 0 ∧ p'.radius = 2 * p.radius ∧ (p'.comp 0).C0 ≠ (p.comp 0).C0 ∧
    (0 < (p.comp 0).xni ∧ (p.comp 0).xni ≤ 1) ∧ (∀ i, Spec.PacPhysical p i) ∧ ∀ i, Spec.PacPhysical p' i := by
  refine ⟨exPac, _, c249_size exPac 0 two_pos 10, rfl, ?_, (exPac_physical 0).xni, exPac_physical, fun i => ?_⟩
  · show (10:ℝ) ≠ 4
    norm_num
  · have h := exPac_physical i
    refine ⟨h.eps, mul_pos two_pos h.radius, h.density, h.porosity, h.K, h.xni, mul_pos two_pos h.kf, ?_, ?_⟩
    · exact mul_pos (by norm_num) h.Ds.1
    · exact mul_le_mul_of_nonneg_left h.Ds.2 (by norm_num)

end WTM
