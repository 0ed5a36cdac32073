import Verif.Lemmas.Race
import Verif.Props.BatchFall
import Verif.Props.PacFall
import Verif.Props.PacDose

/-! C244, C245: what is ahead at every time: more carbon or resin, faster film, faster diffusion, smaller particles, more capacity. -/
set_option autoImplicit false
namespace WTM
open BigOperators Set Topology Filter

/-! ### Powdered carbon -/

section
variable {m m' nd : ℕ} {jac : Fin nd → ℝ} {B : Fin (nd + 1) → Fin (nd + 1) → ℝ} {W : Fin (nd + 1) → ℝ}

/-- The second contactor is at least as good for its compound: it has as much carbon, film transfer and surface diffusion over the
size of the particles, and capacity. -/
structure Spec.NotWorse (p : Pac m) (i : Fin m) (p' : Pac m') (i' : Fin m') : Prop where
  carbon : p'.epsilon ≤ p.epsilon
  film : (p.comp i).kf / p.radius ≤ (p'.comp i').kf / p'.radius
  diff : (p.comp i).Ds / p.radius ^ 2 ≤ (p'.comp i').Ds / p'.radius ^ 2
  capacity : p.density * (p.comp i).K ≤ p'.density * (p'.comp i').K

/-- And better in one of these. -/
def Spec.Better (nd : ℕ) (p : Pac m) (i : Fin m) (p' : Pac m') (i' : Fin m') : Prop :=
  p'.epsilon < p.epsilon ∨ (p.comp i).kf / p.radius < (p'.comp i').kf / p'.radius ∨
    ((p.comp i).Ds / p.radius ^ 2 < (p'.comp i').Ds / p'.radius ^ 2 ∧ 0 < nd) ∨
    p.density * (p.comp i).K < p'.density * (p'.comp i').K

theorem pacMu_le {p : Pac m} {p' : Pac m'} (h0 : 0 < p'.epsilon) (h : p'.epsilon ≤ p.epsilon) :
    pacMu p ≤ pacMu p' ∧ (p'.epsilon < p.epsilon → pacMu p < pacMu p') := by
  have h1 := h0.trans_le h
  have e : ∀ x : ℝ, 0 < x → 3 * (1 - x) / x = 3 / x - 3 := fun x hx => by field_simp
  unfold pacMu
  rw [e _ h0, e _ h1]
  refine ⟨sub_le_sub_right (div_le_div_of_nonneg_left (by norm_num) h0 h) _, fun h2 =>
    sub_lt_sub_right (div_lt_div_of_pos_left (by norm_num) h0 h2) _⟩

theorem pac_race (p : Pac m) (p' : Pac m') {i : Fin m} {i' : Fin m'} (hp : Spec.PacPhysical p i) (hp' : Spec.PacPhysical p' i')
    (hs : Spec.SurfaceOnly nd p i) (hs' : Spec.SurfaceOnly nd p' i') (g : Spec.BeadGrid jac B W)
    (hx : (p'.comp i').xni = (p.comp i).xni) (hn : Spec.NotWorse p i p' i') {y : ℝ → PacY nd m} {y' : ℝ → PacY nd m'}
    (hy : Spec.PacRun p B W y) (h0 : y 0 = pacInit) (hy' : Spec.PacRun p' B W y') (h0' : y' 0 = pacInit) (T : ℝ) :
    Race (pacK p i) (pacK p' i') (pacBe p i) (pacBe p' i') ((p.comp i).kf / p.radius) ((p'.comp i').kf / p'.radius) (pacMu p)
      (pacMu p') T 1 jac B W (fun t => pacView i (y t)) (fun t => pacView i' (y' t)) := by
  have hk := pac_consts hp
  have hiso := pac_iso hp
  have hiso' := pac_iso hp'
  have hv := pacRun_view hy i
  have hv' := pacRun_view hy' i'
  rw [pac_surface hs] at hv
  rw [pac_surface hs'] at hv'
  obtain ⟨f1, f2, f3⟩ := c243_falls p hp hs g hy h0
  obtain ⟨-, -, f3'⟩ := c243_falls p' hp' hs' g hy' h0'
  simp only [pac_cp] at f2
  exact {
    g := g
    mono := hiso.mono
    zero := hiso.neg 0 le_rfl
    weak := fun x hx0 _ => by
      have h1 : 0 < p.rho * (p.comp i).K := by have := hp.density; have := hp.K; unfold Pac.rho; positivity
      have h2 : p.rho * (p.comp i).K ≤ p'.rho * (p'.comp i').K := by
        have := hn.capacity
        unfold Pac.rho
        linarith
      unfold pacK
      rw [hx, div_div, div_div]
      exact Real.rpow_le_rpow (le_max_right _ _) (max_le_max_right _ (div_le_div_of_nonneg_left hx0 h1 h2))
        (one_div_pos.2 hp.xni.1).le
    mono2 := hiso'.monotone.monotoneOn _
    hb1 := hk.2.1
    hb := hn.diff
    hf1 := hk.2.2.1
    hf := hn.film
    hm1 := hk.2.2.2
    hm := (pacMu_le hp'.eps.1 hn.carbon).1
    hc := one_pos
    run1 := fun t ht => (hv t ht.1).mono Icc_subset_Ici_self
    run2 := fun t ht => (hv' t ht.1).mono Icc_subset_Ici_self
    z1 := fun k => by rw [h0]; rfl
    z2 := fun k => by rw [h0']; rfl
    hc1 := by rw [h0]; rfl
    hc2 := by rw [h0']; rfl
    falls1 := f1.mono Icc_subset_Ici_self
    above1 := fun t ht => f2 t ht.1
    load1 := fun t ht => f3 t ht.1
    load2 := fun t ht => f3' t ht.1 }

/-- C244. Of two contactors that meet the isotherm at the surface only, the one that is not worse leaves no more of the influent in
the water at any time, and if it is better it leaves less at every time after the start. -/
theorem c244_ahead (p : Pac m) (p' : Pac m') {i : Fin m} {i' : Fin m'} (hp : Spec.PacPhysical p i) (hp' : Spec.PacPhysical p' i')
    (hs : Spec.SurfaceOnly nd p i) (hs' : Spec.SurfaceOnly nd p' i') (g : Spec.BeadGrid jac B W)
    (hx : (p'.comp i').xni = (p.comp i).xni) (hn : Spec.NotWorse p i p' i') {y : ℝ → PacY nd m} {y' : ℝ → PacY nd m'}
    (hy : Spec.PacRun p B W y) (h0 : y 0 = pacInit) (hy' : Spec.PacRun p' B W y') (h0' : y' 0 = pacInit) :
    (∀ t ≥ 0, (y' t).2 i' ≤ (y t).2 i) ∧ (Spec.Better nd p i p' i' → ∀ t > 0, (y' t).2 i' < (y t).2 i) := by
  have R := pac_race p p' hp hp' hs hs' g hx hn hy h0 hy' h0'
  refine ⟨fun t ht => (R t).ahead t ⟨ht, le_rfl⟩, fun hb t ht => (R t).wins ?_ t ⟨ht, le_rfl⟩⟩
  rcases hb with hb | hb | hb | hb
  · exact Or.inl ((pacMu_le hp'.eps.1 hn.carbon).2 hb)
  · exact Or.inr (Or.inl hb)
  · exact Or.inr (Or.inr (Or.inl hb))
  · refine Or.inr (Or.inr (Or.inr fun x hx0 _ => ?_))
    have h1 : 0 < p.rho * (p.comp i).K := by have := hp.density; have := hp.K; unfold Pac.rho; positivity
    have h2 : p.rho * (p.comp i).K < p'.rho * (p'.comp i').K := by
      unfold Pac.rho
      linarith
    have h3 := h1.trans h2
    unfold pacK
    rw [hx, div_div, div_div, max_eq_left (by positivity), max_eq_left (by positivity)]
    exact Real.rpow_lt_rpow (by positivity) (div_lt_div_of_pos_left hx0 h1 h2) (one_div_pos.2 hp.xni.1)

/-- C244. So it reaches each target sooner. -/
theorem c244_time (p : Pac m) (p' : Pac m') {i : Fin m} {i' : Fin m'} (hp : Spec.PacPhysical p i) (hp' : Spec.PacPhysical p' i')
    (hs : Spec.SurfaceOnly nd p i) (hs' : Spec.SurfaceOnly nd p' i') (g : Spec.BeadGrid jac B W)
    (hx : (p'.comp i').xni = (p.comp i).xni) (hn : Spec.NotWorse p i p' i') {y : ℝ → PacY nd m} {y' : ℝ → PacY nd m'}
    (hy : Spec.PacRun p B W y) (h0 : y 0 = pacInit) (hy' : Spec.PacRun p' B W y') (h0' : y' 0 = pacInit) {t t' : ℝ}
    (ht : 0 ≤ t) (ht' : 0 ≤ t') (he : (y' t').2 i' = (y t).2 i) : t' ≤ t ∧ (Spec.Better nd p i p' i' → 0 < t → t' < t) := by
  obtain ⟨h1, h2⟩ := c244_ahead p p' hp hp' hs hs' g hx hn hy h0 hy' h0'
  have ha := (c243_falls p' hp' hs' g hy' h0').1
  refine ⟨?_, fun hb hpos => ?_⟩
  · by_contra hlt
    have h3 : (y' t').2 i' < (y' t).2 i' := ha ht ht' (not_le.1 hlt)
    linarith [h1 t ht]
  · by_contra hlt
    have h3 : (y' t').2 i' ≤ (y' t).2 i' := ha.antitoneOn ht ht' (not_lt.1 hlt)
    linarith [h2 hb t hpos]

/-- C244. A larger dose brings the effluent down at every time after the start. -/
theorem c244_dose (p : Pac m) {i : Fin m} {d d' : ℝ} (hd : 0 < d) (hdd : d < d') (hd' : d' < p.dw * 1e6)
    (hp : Spec.PacPhysical (({ p with dosage := d } : Pac m).update) i) (hs : Spec.SurfaceOnly nd p i) (g : Spec.BeadGrid jac B W)
    (hC0 : 0 < (p.comp i).C0) {y y' : ℝ → PacY nd m} (hy : Spec.PacRun (({ p with dosage := d } : Pac m).update) B W y)
    (h0 : y 0 = pacInit) (hy' : Spec.PacRun (({ p with dosage := d' } : Pac m).update) B W y') (h0' : y' 0 = pacInit) :
    ∀ t > 0, (p.comp i).C0 * (y' t).2 i < (p.comp i).C0 * (y t).2 i := by
  have hw : 0 < p.dw * 1e6 := hd.trans (hdd.trans hd')
  have e2 : d' / (p.dw * 1e6) < 1 := (div_lt_one hw).2 hd'
  have e0 : 0 < d' / (p.dw * 1e6) := div_pos (hd.trans hdd) hw
  have e3 : d / (p.dw * 1e6) < d' / (p.dw * 1e6) := div_lt_div_of_pos_right hdd hw
  have hp' : Spec.PacPhysical (({ p with dosage := d' } : Pac m).update) i := by
    refine ⟨?_, hp.radius, hp.density, hp.porosity, hp.K, hp.xni, hp.kf, hp.Ds⟩
    show 0 < 1 - d' / (p.dw * 1e6) ∧ 1 - d' / (p.dw * 1e6) < 1
    constructor <;> linarith
  have hlt : (({ p with dosage := d' } : Pac m).update).epsilon < (({ p with dosage := d } : Pac m).update).epsilon := by
    show 1 - d' / (p.dw * 1e6) < 1 - d / (p.dw * 1e6)
    linarith
  have := (c244_ahead _ _ hp hp' (i := i) (i' := i) hs hs g rfl ⟨hlt.le, le_rfl, le_rfl, le_rfl⟩ hy h0 hy' h0').2 (Or.inl hlt)
  exact fun t ht => mul_lt_mul_of_pos_left (this t ht) hC0

end

/-! ### Batches of resin -/

section
variable {r : ℕ} {jac jac' : Fin r → ℝ}

/-- The second batch is at least as good. -/
structure Spec.BatchNotWorse {p : ℕ} (P P' : BatchParams r p) : Prop where
  water : P'.C0 = P.C0
  grid : P'.Br = P.Br ∧ P'.Wr = P.Wr
  resin : P.VR / P.VL ≤ P'.VR / P'.VL
  film : P.kL / P.rb ≤ P'.kL / P'.rb

/-- C245. Two batches of the same water with two monovalent ions in the homogeneous model: the one with as much resin, film transfer
and diffusion over the size of the beads, capacity and selectivity has no more of the second ion in the water at any time; if it
has more of one of these it has less of the ion at every time after the start. -/
theorem c245_two {P P' : BatchParams r 1} (h : Spec.Contactor P jac) (h' : Spec.Contactor P' jac') (hk0 : P.K 0 = 1)
    (hk0' : P'.K 0 = 1) (hk : 0 < P.K 1) (hn : Spec.BatchNotWorse P P') (hD : P.Ds / P.rb ^ 2 ≤ P'.Ds / P'.rb ^ 2)
    (hQ : P.RHOP * P.Qm ≤ P'.RHOP * P'.Qm) (hK : P.K 1 ≤ P'.K 1) (hc : 0 < P.C0 1) {T : ℝ} {y y' : ℝ → BatchState r 1}
    (hy : BatchModel.hsdm.Runs P 0 T y) (h0 : y 0 = batchInit P) (hy' : BatchModel.hsdm.Runs P' 0 T y') (h0' : y' 0 = batchInit P') :
    (∀ t ∈ Icc 0 T, y' t 0 1 ≤ y t 0 1) ∧
      ((P.VR / P.VL < P'.VR / P'.VL ∨ P.kL / P.rb < P'.kL / P'.rb ∨ (P.Ds / P.rb ^ 2 < P'.Ds / P'.rb ^ 2 ∧ 0 < r) ∨
        P.RHOP * P.Qm < P'.RHOP * P'.Qm ∨ P.K 1 < P'.K 1) → ∀ t ∈ Ioc 0 T, y' t 0 1 < y t 0 1) := by
  have hk' : 0 < P'.K 1 := hk.trans_le hK
  obtain ⟨w, hw0, hw, hr, hfall⟩ := hsdm_tank h hk
  obtain ⟨z, -, -, huniq, -, hz⟩ := binary_make h (range_plain hk h.resin) hk0 hk .hsdm hw0 hw fun t ht k hu => by
    have : k = Fin.last r := hu
    rw [this]
    exact hr t ht
  obtain ⟨w', hw0', hw', hr', hfall'⟩ := hsdm_tank h' hk'
  obtain ⟨z', -, -, huniq', -, hz'⟩ := binary_make h' (range_plain hk' h'.resin) hk0' hk' .hsdm hw0' hw' fun t ht k hu => by
    have : k = Fin.last r := hu
    rw [this]
    exact hr' t ht
  have e1 : ∀ t ∈ Icc 0 T, y t 0 1 = (w t).2 := fun t ht => by
    rw [huniq T y hy h0 t ht]; exact congrArg Prod.snd (hz t).1
  have e1' : ∀ t ∈ Icc 0 T, y' t 0 1 = (w' t).2 := fun t ht => by
    rw [huniq' T y' hy' h0' t ht]; exact congrArg Prod.snd (hz' t).1
  obtain ⟨qs, hiso⟩ := binK_iso (range_plain hk h.resin) hk h.resin h.total
  obtain ⟨qs', hiso'⟩ := binK_iso (range_plain hk' h'.resin) hk' h'.resin h'.total
  obtain ⟨f1, f2, f3⟩ := hfall hc T
  obtain ⟨-, -, f3'⟩ := hfall' (by rw [hn.water]; exact hc) T
  have hCT : ∑ i, P'.C0 i = ∑ i, P.C0 i := by rw [hn.water]
  have hle : P.C0 1 ≤ ∑ i, P.C0 i := by
    rw [Fin.sum_univ_two]; linarith [h.conc 0]
  have hs := binary_start h
  have hs' := binary_start h'
  have hQ0 := h.resin
  have hCT0 := h.total
  rw [hCT] at hiso' hw'
  unfold ionRhs at hw hw'
  rw [hn.grid.1, hn.grid.2] at hw'
  have hκQ := binK_full (CT := ∑ i, P.C0 i) (range_plain hk h.resin) hQ0
  set Q := P.RHOP * P.Qm with hQd
  set Q' := P'.RHOP * P'.Qm with hQd'
  set CT := ∑ i, P.C0 i with hCTd
  -- the isotherms
  have hbelow : ∀ x, binK (P.K 1) Q CT 0 Q x < P.C0 1 → x < Q := fun x hx => hiso.mono.lt_iff_lt.1 (by rw [hκQ]; linarith)
  have hform : ∀ x, 0 ≤ x → binK (P.K 1) Q CT 0 Q x < P.C0 1 → x < Q ∧ binK (P.K 1) Q CT 0 Q x = x * (CT / (P.K 1 * (Q - x) + x)) ∧
      binK (P'.K 1) Q' CT 0 Q' x = x * (CT / (P'.K 1 * (Q' - x) + x)) ∧ 0 < P.K 1 * (Q - x) + x := by
    intro x hx hlt
    have hxQ := hbelow x hlt
    exact ⟨hxQ, binK_mid hx hxQ.le, binK_mid hx (hxQ.le.trans hQ), add_pos_of_pos_of_nonneg (mul_pos hk (sub_pos.2 hxQ)) hx⟩
  have hm : ∀ {a b c d : ℝ}, a / b ≤ c / d → 3 * a / b ≤ 3 * c / d := fun {a b c d} h => by
    rw [mul_div_assoc, mul_div_assoc]; linarith
  have R : Race (binK (P.K 1) Q CT 0 Q) (binK (P'.K 1) Q' CT 0 Q') (P.Ds / P.rb ^ 2) (P'.Ds / P'.rb ^ 2) (P.kL / P.rb) (P'.kL / P'.rb)
      (3 * P.VR / P.VL) (3 * P'.VR / P'.VL) T (P.C0 1) jac P.Br P.Wr w w' := {
    g := h.grid
    mono := hiso.mono.strictMonoOn _
    zero := hiso.zero
    weak := fun x hx hlt => by
      obtain ⟨hxQ, e, e', hd⟩ := hform x hx hlt
      rw [e, e']
      refine mul_le_mul_of_nonneg_left (div_le_div_of_nonneg_left hCT0.le hd ?_) hx
      have := mul_le_mul hK (sub_le_sub_right hQ x) (sub_nonneg.2 hxQ.le) hk'.le
      linarith
    mono2 := hiso'.mono.monotone.monotoneOn _
    hb1 := h.beta
    hb := hD
    hf1 := h.f
    hf := hn.film
    hm1 := h.mu
    hm := hm hn.resin
    hc := hc
    run1 := fun t ht => (hw t ht.1).mono Icc_subset_Ici_self
    run2 := fun t ht => (hw' t ht.1).mono Icc_subset_Ici_self
    z1 := fun k => by rw [hw0, hs]
    z2 := fun k => by rw [hw0', hs']
    hc1 := by rw [hw0, hs]
    hc2 := by rw [hw0', hs', hn.water]
    falls1 := f1
    above1 := fun t ht => (f2 t ht.1).2
    load1 := fun t ht => f3 t ht.1
    load2 := fun t ht => f3' t ht.1 }
  refine ⟨fun t ht => ?_, fun hb t ht => ?_⟩
  · rw [e1 t ht, e1' t ht]
    exact R.ahead t ht
  · rw [e1 t ⟨ht.1.le, ht.2⟩, e1' t ⟨ht.1.le, ht.2⟩]
    have hstrict : (Q < Q' ∨ P.K 1 < P'.K 1) → ∀ x > 0, binK (P.K 1) Q CT 0 Q x < P.C0 1 →
        binK (P'.K 1) Q' CT 0 Q' x < binK (P.K 1) Q CT 0 Q x := by
      intro hor x hx hlt
      obtain ⟨hxQ, e, e', hd⟩ := hform x hx.le hlt
      rw [e, e']
      refine mul_lt_mul_of_pos_left (div_lt_div_of_pos_left hCT0 hd ?_) hx
      have h1 := sub_pos.2 hxQ
      have : P.K 1 * (Q - x) < P'.K 1 * (Q' - x) := by
        rcases hor with ho | ho
        · exact mul_lt_mul' hK (sub_lt_sub_right ho x) h1.le hk'
        · exact mul_lt_mul ho (sub_le_sub_right hQ x) h1 hk'.le
      linarith
    refine R.wins ?_ t ht
    rcases hb with hb | hb | hb | hb | hb
    · left
      rw [mul_div_assoc, mul_div_assoc]; linarith
    · exact Or.inr (Or.inl hb)
    · exact Or.inr (Or.inr (Or.inl hb))
    · exact Or.inr (Or.inr (Or.inr (hstrict (Or.inl hb))))
    · exact Or.inr (Or.inr (Or.inr (hstrict (Or.inr hb))))

/-- C245. The same without selectivity for every ion but the presaturant, any number of ions and each of the two models. -/
theorem c245_equal {p : ℕ} {P P' : BatchParams r p} (h : Spec.Contactor P jac) (h' : Spec.Contactor P' jac')
    (hK : ∀ i, P.K i = 1) (hK' : ∀ i, P'.K i = 1) (m m' : BatchModel) (hn : Spec.BatchNotWorse P P')
    (hD : Spec.diffRate m P ≤ Spec.diffRate m' P') (hQ : P.RHOP * P.Qm ≤ P'.RHOP * P'.Qm) {i : Fin (p + 1)} (hi : i ≠ 0)
    (hc : 0 < P.C0 i) {T : ℝ} {y y' : ℝ → BatchState r p} (hy : m.Runs P 0 T y) (h0 : y 0 = batchInit P)
    (hy' : m'.Runs P' 0 T y') (h0' : y' 0 = batchInit P') :
    (∀ t ∈ Icc 0 T, y' t 0 i ≤ y t 0 i) ∧
      ((P.VR / P.VL < P'.VR / P'.VL ∨ P.kL / P.rb < P'.kL / P'.rb ∨ (Spec.diffRate m P < Spec.diffRate m' P' ∧ 0 < r) ∨
        P.RHOP * P.Qm < P'.RHOP * P'.Qm) → ∀ t ∈ Ioc 0 T, y' t 0 i < y t 0 i) := by
  obtain ⟨z, -, -, huniq, -, hT, hβ, hst, hf⟩ := equal_tank h hK m
  obtain ⟨z', -, -, huniq', -, hT', -, hst', hf'⟩ := equal_tank h' hK' m'
  have hyz := huniq T y hy h0
  have hyz' := huniq' T y' hy' h0'
  obtain ⟨f1, f2, f3⟩ := hf i hi hc T
  obtain ⟨-, -, f3'⟩ := hf' i hi (by rw [hn.water]; exact hc) T
  have hs := hst i hi
  have hs' := hst' i hi
  have hCT : ∑ i, P'.C0 i = ∑ i, P.C0 i := by rw [hn.water]
  have hrun := hT i T
  have hrun' := hT' i T
  rw [hCT, hn.grid.1, hn.grid.2] at hrun'
  have hQ0 := h.resin
  have hQ0' := h'.resin
  have hCT0 := h.total
  set Q := P.RHOP * P.Qm with hQd
  set Q' := P'.RHOP * P'.Qm with hQd'
  set CT := ∑ i, P.C0 i with hCTd
  have ha := div_pos hCT0 hQ0
  have ha' := div_pos hCT0 hQ0'
  have R : Race (fun q => CT / Q * q) (fun q => CT / Q' * q) (Spec.diffRate m P) (Spec.diffRate m' P') (P.kL / P.rb) (P'.kL / P'.rb)
      (3 * P.VR / P.VL) (3 * P'.VR / P'.VL) T (P.C0 i) jac P.Br P.Wr (fun t => ionPart (z t) i) (fun t => ionPart (z' t) i) := {
    g := h.grid
    mono := fun a _ b _ hab => mul_lt_mul_of_pos_left hab ha
    zero := mul_zero _
    weak := fun x hx _ => mul_le_mul_of_nonneg_right (div_le_div_of_nonneg_left hCT0.le hQ0 hQ) hx
    mono2 := fun a _ b _ hab => mul_le_mul_of_nonneg_left hab ha'.le
    hb1 := hβ
    hb := hD
    hf1 := h.f
    hf := hn.film
    hm1 := h.mu
    hm := by rw [mul_div_assoc, mul_div_assoc]; linarith [hn.resin]
    hc := hc
    run1 := hrun
    run2 := hrun'
    z1 := hs.1
    z2 := hs'.1
    hc1 := hs.2
    hc2 := by rw [hs'.2, hn.water]
    falls1 := f1
    above1 := f2
    load1 := f3
    load2 := f3' }
  refine ⟨fun t ht => ?_, fun hb t ht => ?_⟩
  · rw [hyz t ht, hyz' t ht]
    exact R.ahead t ht
  · rw [hyz t ⟨ht.1.le, ht.2⟩, hyz' t ⟨ht.1.le, ht.2⟩]
    refine R.wins ?_ t ht
    rcases hb with hb | hb | hb | hb
    · left
      rw [mul_div_assoc, mul_div_assoc]; linarith
    · exact Or.inr (Or.inl hb)
    · exact Or.inr (Or.inr (Or.inl hb))
    · exact Or.inr (Or.inr (Or.inr fun x hx _ => mul_lt_mul_of_pos_right (div_lt_div_of_pos_left hCT0 hQ0 hb) hx))

end

/-- Twice the dose of a carbon without pores, any number of radial points. -/
example (nd : ℕ) : ∃ (p : Pac 1) (jac : Fin nd → ℝ) (B : Fin (nd + 1) → Fin (nd + 1) → ℝ) (W : Fin (nd + 1) → ℝ) (y y' : ℝ → PacY nd 1),
    (40:ℝ) < p.dw * 1e6 ∧ Spec.PacPhysical (({ p with dosage := 20 } : Pac 1).update) 0 ∧ Spec.SurfaceOnly nd p 0 ∧ Spec.BeadGrid jac B W ∧
    Spec.PacRun (({ p with dosage := 20 } : Pac 1).update) B W y ∧ y 0 = pacInit ∧
    Spec.PacRun (({ p with dosage := 40 } : Pac 1).update) B W y' ∧ y' 0 = pacInit ∧
    ∀ t > 0, (p.comp 0).C0 * (y' t).2 0 < (p.comp 0).C0 * (y t).2 0 := by
  have hdw : exPac.dw * 1e6 = 1e6 := by
    show (1:ℝ) * 1e6 = 1e6
    norm_num
  have hp : ∀ d : ℝ, 0 < d → d < 1e6 → ∀ i, Spec.PacPhysical (({ ({ exPac with porosity := 0 } : Pac 1) with dosage := d } : Pac 1).update) i := by
    intro d h1 h2 i
    have h := exPac_physical i
    refine ⟨?_, h.radius, h.density, le_rfl, h.K, h.xni, h.kf, h.Ds⟩
    show 0 < 1 - d / (exPac.dw * 1e6) ∧ 1 - d / (exPac.dw * 1e6) < 1
    rw [hdw]
    have h3 : d / 1e6 < 1 := (div_lt_one (by norm_num)).2 h2
    have h4 : 0 < d / 1e6 := by positivity
    constructor <;> linarith
  obtain ⟨jac, B, W, g⟩ := beadGrid_exists nd
  obtain ⟨y, h0, hy, -⟩ := c212_global _ (hp 20 (by norm_num) (by norm_num)) g (pacInit : PacY nd 1) fun _ => zero_le_one
  obtain ⟨y', h0', hy', -⟩ := c212_global _ (hp 40 (by norm_num) (by norm_num)) g (pacInit : PacY nd 1) fun _ => zero_le_one
  have h40 : (40:ℝ) < exPac.dw * 1e6 := by rw [hdw]; norm_num
  exact ⟨{ exPac with porosity := 0 }, jac, B, W, y, y', h40, hp 20 (by norm_num) (by norm_num) 0, Or.inr (Or.inl rfl), g, hy, h0, hy', h0',
    c244_dose { exPac with porosity := 0 } (by norm_num) (by norm_num) h40 (hp 20 (by norm_num) (by norm_num) 0) (Or.inr (Or.inl rfl)) g
      (show (0:ℝ) < 4 by norm_num) hy h0 hy' h0'⟩

/-- Twice the resin, three bead points, selectivity 3. -/
example : ∃ (jac : Fin 2 → ℝ) (P P' : BatchParams 2 1) (y y' : ℝ → BatchState 2 1), Spec.Contactor P jac ∧ Spec.Contactor P' jac ∧
    Spec.BatchNotWorse P P' ∧ P.VR / P.VL < P'.VR / P'.VL ∧ BatchModel.hsdm.RunsOn P y ∧ y 0 = batchInit P ∧
    BatchModel.hsdm.RunsOn P' y' ∧ y' 0 = batchInit P' ∧ P.K 0 = 1 ∧ P'.K 0 = 1 ∧ P.K 1 = 3 ∧ P'.K 1 = 3 ∧ 0 < P.C0 1 := by
  obtain ⟨jac, B, W, g⟩ := beadGrid_exists 2
  let P : ℝ → BatchParams 2 1 := fun v => ⟨1, 5, 1 / 2, v, 100, 1, 2, 1, 1 / 10, ![1, 2], ![1, 3], fun _ => 1, B, W⟩
  have h : ∀ v, 0 < v → Spec.Contactor (P v) jac := by
    intro v hv
    refine ⟨g, by norm_num [P], by norm_num [P], ⟨hv, by norm_num [P]⟩, by norm_num [P], by norm_num [P], fun i => ?_, ?_, fun _ => rfl⟩
    · fin_cases i <;> norm_num [P]
    · have : ∑ i, (P v).C0 i = 1 + 2 := Fin.sum_univ_two _
      rw [this]; norm_num
  have hk : ∀ v, 0 < (P v).K 1 := fun v => by norm_num [P]
  obtain ⟨y, h0, hy, -⟩ := c220_hsdm (h 1 one_pos) rfl (hk 1)
  obtain ⟨y', h0', hy', -⟩ := c220_hsdm (h 2 two_pos) rfl (hk 2)
  refine ⟨jac, P 1, P 2, y, y', h 1 one_pos, h 2 two_pos, ⟨rfl, ⟨rfl, rfl⟩, ?_, le_rfl⟩, ?_, hy, h0, hy', h0', rfl, rfl, rfl, rfl, ?_⟩
  · norm_num [P]
  · norm_num [P]
  · norm_num [P]

end WTM
