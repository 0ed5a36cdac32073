import Verif.Lemmas.Surface
import Verif.Props.BatchLimit

/-! C242: in a batch the ions of the water only get less and the presaturant only gets more; the surface of the bead stays
behind the water. C220 again: the homogeneous model settles for every selectivity and every amount of the second ion. -/
set_option autoImplicit false
namespace WTM
open BigOperators Set Topology Filter

variable {r p : ℕ}

/-! ### Two ions -/

theorem binK_deriv {k Q CT x : ℝ} (hk : 0 < k) (hC : 0 < CT) (hx : 0 < x) (hxQ : x < Q) :
    ∃ d, 0 < d ∧ HasDerivAt (binK k Q CT 0 Q) d x := by
  have hQ := hx.trans hxQ
  have hD : 0 < k * (Q - x) + x := add_pos (mul_pos hk (sub_pos.2 hxQ)) hx
  have h1 : HasDerivAt (fun x => k * (Q - x) + x) (k * (0 - 1) + 1) x :=
    (((hasDerivAt_const x Q).sub (hasDerivAt_id x)).const_mul k).add (hasDerivAt_id x)
  have h2 : HasDerivAt (fun x => x * (CT / (k * (Q - x) + x)))
      (1 * (CT / (k * (Q - x) + x)) + x * ((0 * (k * (Q - x) + x) - CT * (k * (0 - 1) + 1)) / (k * (Q - x) + x) ^ 2)) x :=
    (hasDerivAt_id x).mul ((hasDerivAt_const x CT).div h1 hD.ne')
  have e : 1 * (CT / (k * (Q - x) + x)) + x * ((0 * (k * (Q - x) + x) - CT * (k * (0 - 1) + 1)) / (k * (Q - x) + x) ^ 2) =
      CT * (k * Q) / (k * (Q - x) + x) ^ 2 := by
    have := hD.ne'
    field_simp
    ring
  rw [e] at h2
  refine ⟨_, by positivity, h2.congr_of_eventuallyEq ?_⟩
  filter_upwards [Ioo_mem_nhds hx hxQ] with s hs
  exact binK_mid hs.1.le hs.2.le

section
variable {P : BatchParams r 1} {jac : Fin r → ℝ}

/-- The tank of the second ion in the homogeneous model: it exists, falls, and the surface stays within the capacity. -/
theorem hsdm_tank (h : Spec.Contactor P jac) (hk : 0 < P.K 1) :
    ∃ w : ℝ → (Fin (r + 1) → ℝ) × ℝ, w 0 = ionPart (batchInit P) 1 ∧
      (∀ t ≥ 0, HasDerivWithinAt w (ionRhs .hsdm P (binK (P.K 1) (P.RHOP * P.Qm) (∑ i, P.C0 i) 0 (P.RHOP * P.Qm)) (w t)) (Ici 0) t) ∧
      (∀ t ≥ 0, 0 ≤ (w t).1 (Fin.last r) ∧ (w t).1 (Fin.last r) ≤ P.RHOP * P.Qm) ∧
      (0 < P.C0 1 → ∀ T, StrictAntiOn (fun t => (w t).2) (Icc 0 T) ∧ (∀ t ≥ 0, (w t).1 (Fin.last r) < P.RHOP * P.Qm ∧
        binK (P.K 1) (P.RHOP * P.Qm) (∑ i, P.C0 i) 0 (P.RHOP * P.Qm) ((w t).1 (Fin.last r)) < (w t).2) ∧
        ∀ t > 0, 0 < (w t).1 (Fin.last r)) := by
  have hR := range_plain hk h.resin
  obtain ⟨qs, hiso⟩ := binK_iso hR hk h.resin h.total
  obtain ⟨w, hw0, hw⟩ := line_global h.grid hiso (h.pore .hsdm) h.beta h.f h.mu (ionPart (batchInit P) 1)
  have hs := binary_start h
  have hQ := h.resin
  have hκQ := binK_full (CT := ∑ i, P.C0 i) hR hQ
  have hCT := h.total
  have hle : P.C0 1 ≤ ∑ i, P.C0 i := by
    rw [Fin.sum_univ_two]; linarith [h.conc 0]
  set Q := P.RHOP * P.Qm with hQd
  set CT := ∑ i, P.C0 i with hCTd
  have i1 : ∀ k, (w 0).1 k = 0 := fun k => by rw [hw0, hs]
  have i2 : (w 0).2 = P.C0 1 := by rw [hw0, hs]
  have hT : ∀ T, ∀ t ∈ Icc 0 T, HasDerivWithinAt w (tankRhs (binK (P.K 1) Q CT 0 Q) 0 (P.Ds / P.rb ^ 2) (P.kL / P.rb)
      (3 * P.VR / P.VL) P.Br P.Wr (w t)) (Icc 0 T) t := fun T t ht => (hw t ht.1).mono Icc_subset_Ici_self
  rcases (h.conc 1).lt_or_eq with hc | hc
  · have hf := fun T => tank_falls h.grid hiso.lip hiso.zero (fun x hx hx1 => binK_deriv hk hCT hx (by
      refine hiso.mono.lt_iff_lt.1 ?_
      rw [i2] at hx1
      rw [hκQ]
      linarith)) h.beta h.f h.mu (hT T) i1 (by rw [i2]; exact hc)
    have hpos : ∀ t ≥ 0, 0 ≤ (w t).1 (Fin.last r) := by
      intro t ht
      rcases ht.lt_or_eq with h1 | h1
      · exact ((hf t).2.2 t ⟨h1, le_rfl⟩).le
      · rw [← h1]; exact (i1 _).ge
    have hlt : ∀ t ≥ 0, (w t).1 (Fin.last r) < Q ∧ binK (P.K 1) Q CT 0 Q ((w t).1 (Fin.last r)) < (w t).2 := by
      intro t ht
      have h1 := (hf t).2.1 t ⟨ht, le_rfl⟩
      have h2 : (w t).2 ≤ (w 0).2 := (hf t).1.antitoneOn ⟨le_rfl, ht⟩ ⟨ht, le_rfl⟩ ht
      refine ⟨hiso.mono.lt_iff_lt.1 ?_, h1⟩
      rw [hκQ]
      linarith
    exact ⟨w, hw0, hw, fun t ht => ⟨hpos t ht, (hlt t ht).1.le⟩, fun _ T => ⟨(hf T).1, hlt, fun t ht => (hf t).2.2 t ⟨ht, le_rfl⟩⟩⟩
  · have hz : ∀ t ≥ 0, w t = (fun _ => 0, 0) := by
      intro t ht
      refine unique_auto (F := ionRhs .hsdm P (binK (P.K 1) Q CT 0 Q)) (a := 0) (b := t) (y1 := w) (y2 := fun _ => (fun _ => 0, 0))
        (line_lip hiso _ _) (fun s hs => (hw s hs.1).mono Icc_subset_Ici_self) (fun s _ => ?_)
        (by rw [hw0, hs, ← hc]) t ⟨ht, le_rfl⟩
      have : ionRhs .hsdm P (binK (P.K 1) Q CT 0 Q) (fun _ => 0, 0) = 0 := by
        refine Prod.ext (funext fun k => ?_) ?_
        · simp [ionRhs, tankRhs, tankPsi, hiso.zero]
        · simp [ionRhs, tankRhs, hiso.zero]
      rw [this]
      exact hasDerivWithinAt_const _ _ _
    refine ⟨w, hw0, hw, fun t ht => ?_, fun h1 => absurd h1 (by rw [← hc]; exact lt_irrefl _)⟩
    rw [hz t ht]
    exact ⟨le_rfl, hQ.le⟩

/-- C220. The homogeneous model of two monovalent ions settles: any number of bead points, selectivity and amounts, whatever
undershoot happens below the surface. -/
theorem c220_hsdm (h : Spec.Contactor P jac) (hk0 : P.K 0 = 1) (hk : 0 < P.K 1) : Spec.Settles .hsdm P := by
  obtain ⟨w, hw0, hw, hr, -⟩ := hsdm_tank h hk
  refine binary_run h (range_plain hk h.resin) hk0 hk .hsdm hw0 hw fun t ht k hu => ?_
  have : k = Fin.last r := hu
  rw [this]
  exact hr t ht

/-- C242. Two monovalent ions in the homogeneous model: along every exact run the second ion gets less in the water all the time
and the presaturant more, the loadings of the surface stay within the capacity, and the surface stays behind the water. -/
theorem c242_two (h : Spec.Contactor P jac) (hk0 : P.K 0 = 1) (hk : 0 < P.K 1) (hc : 0 < P.C0 1) {T : ℝ} {y : ℝ → BatchState r 1}
    (hy : BatchModel.hsdm.Runs P 0 T y) (h0 : y 0 = batchInit P) :
    StrictAntiOn (fun t => y t 0 1) (Icc 0 T) ∧ StrictMonoOn (fun t => y t 0 0) (Icc 0 T) ∧ ∀ t ∈ Icc 0 T,
      (0 ≤ y t (Fin.last (r + 1)) 1 ∧ 0 < y t (Fin.last (r + 1)) 0 ∧
        y t (Fin.last (r + 1)) 0 + y t (Fin.last (r + 1)) 1 = P.RHOP * P.Qm) ∧
      y t (Fin.last (r + 1)) 1 * y t 0 0 < P.K 1 * y t (Fin.last (r + 1)) 0 * y t 0 1 := by
  obtain ⟨w, hw0, hw, hr, hfall⟩ := hsdm_tank h hk
  obtain ⟨z, -, -, huniq, -, hz⟩ := binary_make h (range_plain hk h.resin) hk0 hk .hsdm hw0 hw fun t ht k hu => by
    have : k = Fin.last r := hu
    rw [this]
    exact hr t ht
  have hyz := huniq T y hy h0
  obtain ⟨hanti, hlt, -⟩ := hfall hc T
  have e1 : ∀ t ∈ Icc 0 T, y t 0 1 = (w t).2 := fun t ht => by
    rw [hyz t ht]; exact congrArg Prod.snd (hz t).1
  have e0 : ∀ t ∈ Icc 0 T, y t 0 0 = (∑ i, P.C0 i) - (w t).2 := fun t ht => by
    rw [hyz t ht]; exact congrArg Prod.snd (hz t).2
  have q1 : ∀ t ∈ Icc 0 T, y t (Fin.last (r + 1)) 1 = (w t).1 (Fin.last r) := fun t ht => by
    rw [hyz t ht]; exact congrFun (congrArg Prod.fst (hz t).1) (Fin.last r)
  have q0 : ∀ t ∈ Icc 0 T, y t (Fin.last (r + 1)) 0 = P.RHOP * P.Qm - (w t).1 (Fin.last r) := fun t ht => by
    rw [hyz t ht]; exact congrFun (congrArg Prod.fst (hz t).2) (Fin.last r)
  refine ⟨fun s hs t ht hst => ?_, fun s hs t ht hst => ?_, fun t ht => ⟨⟨?_, ?_, ?_⟩, ?_⟩⟩
  · show y t 0 1 < y s 0 1
    rw [e1 t ht, e1 s hs]
    exact hanti hs ht hst
  · show y s 0 0 < y t 0 0
    rw [e0 t ht, e0 s hs]
    exact sub_lt_sub_left (hanti hs ht hst) _
  · rw [q1 t ht]; exact (hr t ht.1).1
  · rw [q0 t ht]; exact sub_pos.2 (hlt t ht.1).1
  · rw [q0 t ht, q1 t ht]; ring
  · rw [q0 t ht, q1 t ht, e0 t ht, e1 t ht]
    have h1 := (hlt t ht.1).2
    have h2 := hr t ht.1
    rw [binK_mid h2.1 h2.2, ← mul_div_assoc, div_lt_iff₀] at h1
    · linarith
    · exact range_reg (range_plain hk h.resin) h2.1 h2.2

end

/-! ### Several ions without selectivity -/

section
variable {P : BatchParams r p} {jac : Fin r → ℝ}

theorem tankRhs_linear {a α β f μ : ℝ} (B : Fin (r + 1) → Fin (r + 1) → ℝ) (W : Fin (r + 1) → ℝ) :
    tankRhs (fun q => a * q) α β f μ B W = tankRhs (fun q => a * q) 0 (α * a + β) f μ B W := by
  have e : ∀ q, tankPsi (fun q => a * q) α β q = tankPsi (fun q => a * q) 0 (α * a + β) q := fun q => by unfold tankPsi; ring
  funext u
  unfold tankRhs
  simp only [e]

/-- Rate of diffusion in a bead without selectivity, pores included. -/
noncomputable def Spec.diffRate (m : BatchModel) (P : BatchParams r p) : ℝ :=
  m.pore P * ((∑ i, P.C0 i) / (P.RHOP * P.Qm)) + P.Ds / P.rb ^ 2

/-- The tank of an ion without selectivity. -/
theorem equal_tank (h : Spec.Contactor P jac) (hK : ∀ i, P.K i = 1) (m : BatchModel) :
    ∃ z : ℝ → BatchState r p, z 0 = batchInit P ∧ m.RunsOn P z ∧
      (∀ T y', m.Runs P 0 T y' → y' 0 = batchInit P → ∀ t ∈ Icc 0 T, y' t = z t) ∧
      (∀ t ≥ 0, ∑ i, z t 0 i = ∑ i, P.C0 i) ∧
      (∀ i T, ∀ t ∈ Icc 0 T, HasDerivWithinAt (fun t => ionPart (z t) i) (tankRhs (fun q => (∑ i, P.C0 i) / (P.RHOP * P.Qm) * q) 0
        (Spec.diffRate m P) (P.kL / P.rb) (3 * P.VR / P.VL) P.Br P.Wr (ionPart (z t) i)) (Icc 0 T) t) ∧
      0 < Spec.diffRate m P ∧ (∀ i, i ≠ 0 → (∀ k, (ionPart (z 0) i).1 k = 0) ∧ (ionPart (z 0) i).2 = P.C0 i) ∧
      ∀ i, i ≠ 0 → 0 < P.C0 i → ∀ T, StrictAntiOn (fun t => (ionPart (z t) i).2) (Icc 0 T) ∧
        (∀ t ∈ Icc 0 T, (∑ i, P.C0 i) / (P.RHOP * P.Qm) * (ionPart (z t) i).1 (Fin.last r) < (ionPart (z t) i).2) ∧
        ∀ t ∈ Ioc 0 T, 0 < (ionPart (z t) i).1 (Fin.last r) := by
  have ht := batchInit_totals h
  obtain ⟨z, hz0, hzrun, huniq, hz⟩ := equal_run h hK m h.resin ht.1 ht.2
  have hQ := h.resin
  have hCT := h.total
  have ha : 0 < (∑ i, P.C0 i) / (P.RHOP * P.Qm) := div_pos hCT hQ
  have hβ : 0 < Spec.diffRate m P := add_pos_of_nonneg_of_pos (mul_nonneg (h.pore m) ha.le) h.beta
  have hT : ∀ i T, ∀ t ∈ Icc 0 T, HasDerivWithinAt (fun t => ionPart (z t) i) (tankRhs (fun q => (∑ i, P.C0 i) / (P.RHOP * P.Qm) * q) 0
      (Spec.diffRate m P) (P.kL / P.rb) (3 * P.VR / P.VL) P.Br P.Wr (ionPart (z t) i)) (Icc 0 T) t := by
    intro i T t ht
    have := (hz i t ht.1).1.mono (Icc_subset_Ici_self : Icc 0 T ⊆ Ici 0)
    unfold ionRhs at this
    rw [tankRhs_linear] at this
    exact this
  have hst : ∀ i, i ≠ 0 → (∀ k, (ionPart (z 0) i).1 k = 0) ∧ (ionPart (z 0) i).2 = P.C0 i := by
    intro i hi
    rw [hz0]
    refine ⟨fun k => ?_, ?_⟩
    · simp [ionPart, batchInit, h.nodv, hi]
    · simp [ionPart, batchInit]
  have hiso := lineIso_linear ha
  exact ⟨z, hz0, hzrun, huniq, fun t ht => (hz 0 t ht).2, hT, hβ, hst, fun i hi hc T => tank_falls h.grid hiso.lip hiso.zero
    (fun x _ _ => ⟨_, ha, by simpa using (hasDerivAt_id x).const_mul ((∑ i, P.C0 i) / (P.RHOP * P.Qm))⟩) hβ h.f h.mu (hT i T) (hst i hi).1
    (by rw [(hst i hi).2]; exact hc)⟩

/-- C242. Without selectivity, in both models, with any number of monovalent ions: along every exact run every ion of the water
gets less all the time, and the presaturant more. -/
theorem c242_equal (h : Spec.Contactor P jac) (hK : ∀ i, P.K i = 1) (m : BatchModel) {T : ℝ} {y : ℝ → BatchState r p}
    (hy : m.Runs P 0 T y) (h0 : y 0 = batchInit P) :
    (∀ i, i ≠ 0 → 0 < P.C0 i → StrictAntiOn (fun t => y t 0 i) (Icc 0 T) ∧ ∀ t ∈ Ioc 0 T, 0 < y t (Fin.last (r + 1)) i ∧
      (∑ j, P.C0 j) * y t (Fin.last (r + 1)) i < P.RHOP * P.Qm * y t 0 i) ∧
    ((∃ i, i ≠ 0 ∧ 0 < P.C0 i) → StrictMonoOn (fun t => y t 0 0) (Icc 0 T)) := by
  obtain ⟨z, hz0, hzrun, huniq, hsum, hT', hβ, hst, hf'⟩ := equal_tank h hK m
  have hyz := huniq T y hy h0
  have hQ := h.resin
  have hT := fun i => hT' i T
  have hf := fun i hi hc => hf' i hi hc T
  have hiso := lineIso_linear (div_pos h.total hQ)
  set Q := P.RHOP * P.Qm with hQd
  set CT := ∑ i, P.C0 i with hCTd
  have hmain : ∀ i, i ≠ 0 → 0 < P.C0 i → StrictAntiOn (fun t => y t 0 i) (Icc 0 T) := by
    intro i hi hc s hs t ht hst'
    show y t 0 i < y s 0 i
    rw [hyz t ht, hyz s hs]
    exact (hf i hi hc).1 hs ht hst'
  refine ⟨fun i hi hc => ⟨hmain i hi hc, fun t ht => ?_⟩, ?_⟩
  · have ht' : t ∈ Icc 0 T := ⟨ht.1.le, ht.2⟩
    rw [hyz t ht']
    have h1 := (hf i hi hc).2.1 t ht'
    have h2 := (hf i hi hc).2.2 t ht
    refine ⟨h2, ?_⟩
    have h3 : CT / Q * z t (Fin.last (r + 1)) i < z t 0 i := h1
    rw [div_mul_eq_mul_div, div_lt_iff₀ hQ] at h3
    linarith
  · rintro ⟨j, hj, hcj⟩ s hs t ht hst'
    have hzero : ∀ i, i ≠ 0 → P.C0 i = 0 → ∀ t ∈ Icc 0 T, z t 0 i = 0 := by
      intro i hi hc t ht
      have := unique_auto (F := tankRhs (fun q => CT / Q * q) 0
        (Spec.diffRate m P) (P.kL / P.rb) (3 * P.VR / P.VL) P.Br P.Wr) (a := 0) (b := T)
        (y1 := fun t => ionPart (z t) i) (y2 := fun _ => (fun _ => 0, 0)) (line_lip hiso _ _) (hT i) (fun s _ => by
          have e : tankRhs (fun q => CT / Q * q) 0 (Spec.diffRate m P) (P.kL / P.rb) (3 * P.VR / P.VL)
              P.Br P.Wr (fun _ => 0, 0) = 0 := by
            refine Prod.ext (funext fun k => ?_) ?_
            · simp [tankRhs, tankPsi]
            · simp [tankRhs]
          rw [e]
          exact hasDerivWithinAt_const _ _ _)
        (Prod.ext (funext fun k => (hst i hi).1 k) ((hst i hi).2.trans hc)) t ht
      exact congrArg Prod.snd this
    have hle : ∀ i, i ≠ 0 → z t 0 i ≤ z s 0 i := by
      intro i hi
      rcases (h.conc i).lt_or_eq with hc | hc
      · exact ((hf i hi hc).1 hs ht hst').le
      · rw [hzero i hi hc.symm t ht, hzero i hi hc.symm s hs]
    have hlt : ∑ i ∈ Finset.univ.erase 0, z t 0 i < ∑ i ∈ Finset.univ.erase 0, z s 0 i :=
      Finset.sum_lt_sum (fun i hi => hle i (Finset.ne_of_mem_erase hi))
        ⟨j, Finset.mem_erase.2 ⟨hj, Finset.mem_univ _⟩, (hf j hj hcj).1 hs ht hst'⟩
    have s1 := hsum t ht.1
    have s2 := hsum s hs.1
    rw [← Finset.add_sum_erase _ _ (Finset.mem_univ (0 : Fin (p + 1)))] at s1 s2
    show y s 0 0 < y t 0 0
    rw [hyz t ht, hyz s hs]
    linarith

end

/-- Three bead points, selectivity 3, and as much of the second ion as one likes. -/
example (c : ℝ) (hc : 0 < c) : ∃ (jac : Fin 2 → ℝ) (P : BatchParams 2 1), Spec.Contactor P jac ∧ P.K 0 = 1 ∧ P.K 1 = 3 ∧
    P.C0 1 = c ∧ Spec.Settles .hsdm P := by
  obtain ⟨jac, B, W, g⟩ := beadGrid_exists 2
  let P : BatchParams 2 1 := ⟨1, 5, 1 / 2, 1, 100, 1, 2, 1, 1 / 10, ![1, c], ![1, 3], fun _ => 1, B, W⟩
  have hk : 0 < P.K 1 := by norm_num [P]
  have h : Spec.Contactor P jac := by
    refine ⟨g, by norm_num [P], by norm_num [P], by norm_num [P], by norm_num [P], by norm_num [P], fun i => ?_, ?_, fun _ => rfl⟩
    · fin_cases i
      · exact zero_le_one
      · exact hc.le
    · have : ∑ i, P.C0 i = 1 + c := Fin.sum_univ_two _
      rw [this]; linarith
  exact ⟨jac, P, h, rfl, rfl, rfl, c220_hsdm h rfl hk⟩

/-- Three ions without selectivity on three bead points with pores. -/
example (m : BatchModel) : ∃ (jac : Fin 2 → ℝ) (P : BatchParams 2 2) (y : ℝ → BatchState 2 2), Spec.Contactor P jac ∧ (∀ i, P.K i = 1) ∧
    0 < P.EPOR * (P.Dp - P.Ds) ∧ 0 < P.C0 1 ∧ 0 < P.C0 2 ∧ m.RunsOn P y ∧ y 0 = batchInit P := by
  obtain ⟨jac, B, W, g⟩ := beadGrid_exists 2
  let P : BatchParams 2 2 := ⟨1, 5, 1 / 2, 1, 100, 1, 2, 1, 1 / 10, ![1, 2, 3], fun _ => 1, fun _ => 1, B, W⟩
  have h : Spec.Contactor P jac := by
    refine ⟨g, by norm_num [P], by norm_num [P], by norm_num [P], by norm_num [P], by norm_num [P], fun i => ?_, ?_, fun _ => rfl⟩
    · fin_cases i <;> norm_num [P]
    · have : ∑ i, P.C0 i = 1 + 2 + 3 := Fin.sum_univ_three _
      rw [this]; norm_num
  obtain ⟨z, h0, hz, -⟩ := equal_tank h (fun _ => rfl) m
  exact ⟨jac, P, z, h, fun _ => rfl, by norm_num [P], by norm_num [P], show (0:ℝ) < 3 by norm_num, hz, h0⟩

end WTM
