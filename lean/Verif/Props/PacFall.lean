import Verif.Lemmas.Surface
import Verif.Props.PacStudy

/-! C243: the effluent of a powdered carbon contactor only falls, so that a contact time answers one target. -/
set_option autoImplicit false
namespace WTM
open BigOperators Set Topology Filter

variable {m nd : ℕ} {jac : Fin nd → ℝ} {B : Fin (nd + 1) → Fin (nd + 1) → ℝ} {W : Fin (nd + 1) → ℝ}

/-- The isotherm is met at the surface only: one radial point, no pores, or no difference between the two diffusion coefficients. -/
def Spec.SurfaceOnly (nd : ℕ) (p : Pac m) (i : Fin m) : Prop := nd = 0 ∨ p.porosity = 0 ∨ (p.comp i).Dp = (p.comp i).Ds

theorem pacK_slope {p : Pac m} {i : Fin m} (h : Spec.PacPhysical p i) {x : ℝ} (hx : 0 < x) :
    ∃ d, 0 < d ∧ HasDerivAt (pacK p i) d x := by
  have hr : 0 < p.rho := by have := h.density; unfold Pac.rho; positivity
  have hK := h.K
  have hn := one_div_pos.2 h.xni.1
  have hq : 0 < x / p.rho / (p.comp i).K := by positivity
  have h1 : HasDerivAt (fun q => q / p.rho / (p.comp i).K) (1 / p.rho / (p.comp i).K) x :=
    ((hasDerivAt_id x).div_const _).div_const _
  refine ⟨_, ?_, (h1.rpow_const (p := 1 / (p.comp i).xni) (Or.inl hq.ne')).congr_of_eventuallyEq ?_⟩
  · have := Real.rpow_pos_of_pos hq (1 / (p.comp i).xni - 1)
    positivity
  · filter_upwards [Ioi_mem_nhds hx] with s hs
    have hs : 0 < s := hs
    unfold pacK
    rw [max_eq_left (by positivity)]

theorem tankRhs_point {κ : ℝ → ℝ} {α α' β f μ : ℝ} (B : Fin (0 + 1) → Fin (0 + 1) → ℝ) (W : Fin (0 + 1) → ℝ) :
    tankRhs κ α β f μ B W = tankRhs κ α' β f μ B W := by
  funext u
  refine Prod.ext (funext fun k => ?_) rfl
  have : k = Fin.last 0 := Subsingleton.elim (α := Fin 1) _ _
  subst this
  simp [tankRhs]

/-- The tank of a compound that meets the isotherm at the surface only. -/
theorem pac_surface {p : Pac m} {i : Fin m} (hs : Spec.SurfaceOnly nd p i) :
    tankRhs (pacK p i) (pacAl p i) (pacBe p i) ((p.comp i).kf / p.radius) (pacMu p) B W =
      tankRhs (pacK p i) 0 (pacBe p i) ((p.comp i).kf / p.radius) (pacMu p) B W := by
  rcases hs with h | h | h
  · subst h
    exact tankRhs_point B W
  · have : pacAl p i = 0 := by unfold pacAl; rw [h]; ring
    rw [this]
  · have : pacAl p i = 0 := by unfold pacAl; rw [h]; ring
    rw [this]

/-- C243. Where the isotherm is met at the surface only, the effluent of a run as the code starts it falls all the time, the water
stays above the equilibrium of the surface of the carbon, and the surface is loaded from the start. -/
theorem c243_falls (p : Pac m) {i : Fin m} (hp : Spec.PacPhysical p i) (hs : Spec.SurfaceOnly nd p i) (g : Spec.BeadGrid jac B W)
    {y : ℝ → PacY nd m} (hy : Spec.PacRun p B W y) (h0 : y 0 = pacInit) :
    StrictAntiOn (fun t => (y t).2 i) (Ici 0) ∧ (∀ t ≥ 0, p.cp (y t) (Fin.last nd) i < (y t).2 i) ∧
      ∀ t > 0, 0 < (y t).1 (Fin.last nd) i := by
  have hk := pac_consts hp
  have hiso := pac_iso hp
  have hv := pacRun_view hy i
  rw [pac_surface hs] at hv
  have hf := fun T => tank_falls (T := T) (y := fun t => pacView i (y t)) g hiso.lip (hiso.neg 0 le_rfl)
    (fun x hx _ => pacK_slope hp hx) hk.2.1 hk.2.2.1 hk.2.2.2 (fun t ht => (hv t ht.1).mono Icc_subset_Ici_self)
    (fun k => by rw [h0]; rfl) (by rw [h0]; exact zero_lt_one)
  refine ⟨fun s hs t ht hst => (hf t).1 ⟨hs, hst.le⟩ ⟨ht, le_rfl⟩ hst, fun t ht => ?_, fun t ht => (hf t).2.2 t ⟨ht, le_rfl⟩⟩
  rw [pac_cp]
  exact (hf t).2.1 t ⟨ht, le_rfl⟩

/-- C243. So every concentration between the influent and the one left in the end (C212) is the effluent of exactly one contact
time, and no contact time brings the effluent down to the one left in the end. -/
theorem c243_time (p : Pac m) {i : Fin m} (hp : Spec.PacPhysical p i) (hs : Spec.SurfaceOnly nd p i) (g : Spec.BeadGrid jac B W)
    {y : ℝ → PacY nd m} (hy : Spec.PacRun p B W y) (h0 : y 0 = pacInit) (hC : 0 < (p.comp i).C0) {c : ℝ} (hc0 : 0 ≤ c)
    (hc : p.epsilon * c + (1 - p.epsilon) * (p.density * 1000 * ((p.comp i).K * c ^ (p.comp i).xni)) = p.epsilon) :
    (∀ target, (p.comp i).C0 * c < target → target ≤ (p.comp i).C0 → ∃! t, 0 ≤ t ∧ (p.comp i).C0 * (y t).2 i = target) ∧
      ∀ t ≥ 0, (p.comp i).C0 * c < (p.comp i).C0 * (y t).2 i ∧ (p.comp i).C0 * (y t).2 i ≤ (p.comp i).C0 := by
  obtain ⟨hanti, -, -⟩ := c243_falls p hp hs g hy h0
  have hlim := (c212_start p hp g hy h0 hc0 hc).1
  have hanti' : StrictAntiOn (fun t => (p.comp i).C0 * (y t).2 i) (Ici 0) := fun s hs t ht hst =>
    mul_lt_mul_of_pos_left (hanti hs ht hst) hC
  have i0 : (p.comp i).C0 * (y 0).2 i = (p.comp i).C0 := by rw [h0]; exact mul_one _
  have hcont : ContinuousOn (fun t => (p.comp i).C0 * (y t).2 i) (Ici 0) := fun t ht =>
    ((tank_parts (pacRun_view hy i t ht)).2.continuousWithinAt).const_mul _
  have hge : ∀ t ≥ 0, (p.comp i).C0 * c ≤ (p.comp i).C0 * (y t).2 i := fun t ht =>
    le_of_tendsto hlim (by
      filter_upwards [eventually_ge_atTop t] with s hs
      exact hanti'.antitoneOn ht (ht.trans hs) hs)
  refine ⟨fun target h1 h2 => ?_, fun t ht => ⟨?_, ?_⟩⟩
  · obtain ⟨s, hs1, hs2⟩ := ((hlim.eventually (gt_mem_nhds h1)).and (eventually_ge_atTop 0)).exists
    obtain ⟨t, ht, he⟩ := intermediate_value_Icc' hs2 (hcont.mono Icc_subset_Ici_self) ⟨hs1.le, i0.ge.trans' h2⟩
    exact ⟨t, ⟨ht.1, he⟩, fun t' ht' => hanti'.injOn ht'.1 ht.1 (ht'.2.trans he.symm)⟩
  · have h1 := hge (t + 1) (by linarith)
    have h2 : (p.comp i).C0 * (y (t + 1)).2 i < (p.comp i).C0 * (y t).2 i :=
      hanti' ht (show (0:ℝ) ≤ t + 1 by linarith) (by linarith)
    linarith
  · have h1 : (p.comp i).C0 * (y t).2 i ≤ (p.comp i).C0 * (y 0).2 i := hanti'.antitoneOn (mem_Ici.2 le_rfl) ht ht
    rwa [i0] at h1

/-- C243. A table of the exact effluent at increasing times is falling. The studies report a contact time for each target that the
table reaches from above, and it lies between the same two rows as the exact one. -/
theorem c243_study (p : Pac m) {i : Fin m} (hp : Spec.PacPhysical p i) (hs : Spec.SurfaceOnly nd p i) (g : Spec.BeadGrid jac B W)
    {y : ℝ → PacY nd m} (hy : Spec.PacRun p B W y) (h0 : y 0 = pacInit) (hC : 0 < (p.comp i).C0) {cv target : ℝ} (hcv : 0 < cv)
    {ts : List ℝ} (hts : (0 :: ts).Pairwise (· < ·)) (habove : target < (p.comp i).C0 * cv)
    (hreach : ∃ t ∈ ts, (p.comp i).C0 * (y t).2 i * cv ≤ target) :
    Spec.Falling ((0 :: ts).map fun t => (t, (p.comp i).C0 * (y t).2 i)) ∧
    ∃ a b t t', a ∈ 0 :: ts ∧ b ∈ ts ∧ (∀ s ∈ 0 :: ts, s ≤ a ∨ b ≤ s) ∧
      hrtCell cv target ((0 :: ts).map fun t => (t, (p.comp i).C0 * (y t).2 i)) = some t ∧ a ≤ t ∧ t ≤ b ∧
      a ≤ t' ∧ t' ≤ b ∧ (p.comp i).C0 * (y t').2 i * cv = target := by
  obtain ⟨hanti, -, -⟩ := c243_falls p hp hs g hy h0
  have hanti' : StrictAntiOn (fun t => (p.comp i).C0 * (y t).2 i) (Ici 0) := fun s hs t ht hst =>
    mul_lt_mul_of_pos_left (hanti hs ht hst) hC
  have hnn : ∀ t ∈ 0 :: ts, 0 ≤ t := by
    intro t ht
    rcases List.mem_cons.1 ht with rfl | h
    · exact le_rfl
    · exact ((List.pairwise_cons.1 hts).1 t h).le
  have hcont : ContinuousOn (fun t => (p.comp i).C0 * (y t).2 i * cv) (Ici 0) := fun t ht =>
    (((tank_parts (pacRun_view hy i t ht)).2.continuousWithinAt).const_mul _).mul_const _
  have hfall : Spec.Falling ((0 :: ts).map fun t => (t, (p.comp i).C0 * (y t).2 i)) := by
    unfold Spec.Falling
    rw [List.pairwise_map]
    exact (List.Pairwise.and_mem.1 hts).imp fun h => ⟨h.2.2, hanti' (hnn _ h.1) (hnn _ h.2.1) h.2.2⟩
  refine ⟨hfall, ?_⟩
  set c := fun t => (p.comp i).C0 * (y t).2 i with hc
  have i0 : c 0 = (p.comp i).C0 := by rw [hc]; simp only [h0]; exact mul_one _
  obtain ⟨t1, ht1, hle1⟩ := hreach
  have hre : ∃ r ∈ (0 :: ts).map fun t => (t, c t), r.2 * cv ≤ target :=
    ⟨(t1, c t1), List.mem_map.2 ⟨t1, List.mem_cons_of_mem _ ht1, rfl⟩, hle1⟩
  obtain ⟨ra, rb, ⟨l1, l2, hl⟩, h1, h2⟩ := falling_cross (cv := cv) (target := target) (tab := (0 :: ts).map fun t => (t, c t))
    (List.map_cons) (by simp only [i0]; exact habove) hre
  obtain ⟨u1, u2, hu, hu1, hu2⟩ := List.map_eq_append_iff.1 hl
  obtain ⟨a, u3, rfl, ha, hu3⟩ := List.map_eq_cons_iff.1 hu2
  obtain ⟨b, u4, rfl, hb, hu4⟩ := List.map_eq_cons_iff.1 hu3
  subst ha hb
  simp only at h1 h2
  have hab : a < b := by
    rw [hu, List.pairwise_append] at hts
    exact (List.pairwise_cons.1 hts.2.1).1 b (by simp)
  have ma : a ∈ 0 :: ts := by rw [hu]; simp
  have mb : b ∈ 0 :: ts := by rw [hu]; simp
  have mb' : b ∈ ts := by
    rcases List.mem_cons.1 mb with h | h
    · exact absurd (hnn a ma) (by rw [← h]; exact not_le.2 hab)
    · exact h
  have hgap : ∀ s ∈ 0 :: ts, s ≤ a ∨ b ≤ s := by
    intro s hs
    rw [hu, List.pairwise_append] at hts
    rw [hu] at hs
    rcases List.mem_append.1 hs with h | h
    · exact Or.inl (hts.2.2 s h a (by simp)).le
    · rcases List.mem_cons.1 h with rfl | h
      · exact Or.inl le_rfl
      · rcases List.mem_cons.1 h with rfl | h
        · exact Or.inr le_rfl
        · exact Or.inr ((List.pairwise_cons.1 (List.pairwise_cons.1 hts.2.1).2).1 s h).le
  obtain ⟨t', ht', he'⟩ := intermediate_value_Icc' hab.le (hcont.mono fun s hs => (hnn a ma).trans hs.1) ⟨h2, h1⟩
  have hlt : c b * cv < c a * cv := mul_lt_mul_of_pos_right (hanti' (hnn a ma) (hnn b mb) hab) hcv
  have hseg : Spec.Segment (((0 :: ts).map fun t => (t, c t)).map fun r => (r.2 * cv, r.1)).reverse (c b * cv, b) (c a * cv, a) := by
    refine ⟨(l2.map fun r => (r.2 * cv, r.1)).reverse, (l1.map fun r => (r.2 * cv, r.1)).reverse, ?_⟩
    rw [hl]; simp
  have hv := npInterp_segment (rev_increasing hcv hfall) hseg (t := target) h2 h1
  refine ⟨a, b, _, t', ma, mb', hgap, by unfold hrtCell; rw [if_pos hre], ?_, ?_, ht'.1, ht'.2, he'⟩ <;> rw [hv] <;> simp only
  · have hd : 0 < c a * cv - c b * cv := by linarith
    have h3 : (target - c b * cv) / (c a * cv - c b * cv) ≤ 1 := by rw [div_le_one hd]; linarith
    have e : b + (a - b) / (c a * cv - c b * cv) * (target - c b * cv) =
        b - (b - a) * ((target - c b * cv) / (c a * cv - c b * cv)) := by ring
    rw [e]
    nlinarith
  · have hd : 0 < c a * cv - c b * cv := by linarith
    have h3 : 0 ≤ (target - c b * cv) / (c a * cv - c b * cv) := div_nonneg (by linarith) hd.le
    have e : b + (a - b) / (c a * cv - c b * cv) * (target - c b * cv) =
        b - (b - a) * ((target - c b * cv) / (c a * cv - c b * cv)) := by ring
    rw [e]
    nlinarith

/-- A contactor without pores, with any number of radial points. -/
example : ∃ p : Pac 1, (∀ i, Spec.PacPhysical p i) ∧ (∀ nd i, Spec.SurfaceOnly nd p i) ∧ (∀ i, 0 < (p.comp i).C0) ∧
    ∀ nd, ∃ (jac : Fin nd → ℝ) (B : Fin (nd + 1) → Fin (nd + 1) → ℝ) (W : Fin (nd + 1) → ℝ) (y : ℝ → PacY nd 1),
      Spec.BeadGrid jac B W ∧ Spec.PacRun p B W y ∧ y 0 = pacInit := by
  have hp : ∀ i, Spec.PacPhysical { exPac with porosity := 0 } i := fun i =>
    ⟨(exPac_physical i).eps, (exPac_physical i).radius, (exPac_physical i).density, le_rfl, (exPac_physical i).K,
      (exPac_physical i).xni, (exPac_physical i).kf, (exPac_physical i).Ds⟩
  refine ⟨_, hp, fun _ _ => Or.inr (Or.inl rfl), fun i => ?_, fun nd => ?_⟩
  · show (0:ℝ) < 4
    norm_num
  · obtain ⟨jac, B, W, g⟩ := beadGrid_exists nd
    obtain ⟨y, h0, hy, -⟩ := c212_global _ hp g (pacInit : PacY nd 1) fun _ => zero_le_one
    exact ⟨jac, B, W, y, g, hy, h0⟩

end WTM
