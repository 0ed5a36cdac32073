import Verif.Lemmas.MultiPush
import Verif.Props.IonMobility

/-! Property C274: near exhaustion an ion exchange column with any number of ions of mild mobilities follows a wavering influent of constant total
with a bounded gain, forgets its start, and tends to exhaustion when the influent settles. -/
set_option autoImplicit false
namespace WTM
open BigOperators Set Topology Filter

section
variable {r p z : ℕ} {m : ColModel} {P : ColParams r p z} {jac : Fin r → ℝ} {tH : ℝ} {cin q : Fin (p + 1) → ℝ} {Q : ℝ}

theorem ion_total_in {s : Fin (p + 1) → ℝ} (hs : ∑ i, s i = ∑ i, cin i) {u : ColState r p z} (hu : Spec.Totals (∑ i, cin i) Q u)
    (w : Fin (z + 1)) : ∑ i, setInlet u s 0 i w = ∑ i, cin i := by
  rw [← hs] at hu ⊢
  exact plain_total hu w

/-- What an excess of the influent in the ions but the presaturant adds to the rates. -/
noncomputable def redPush (P : ColParams r p z) (tH : ℝ) : (Fin p → ℝ) →L[ℝ] MBed (MBead p r) p z :=
  (mbedPush (fun j => tH * P.kL j.succ / P.rb) (P.v * tH / (P.L * P.EBED)) P.Az P.Wr).toContinuousLinearMap

/-- The rates under an influent `s` of the same total. -/
theorem red_rates_in (h : Spec.IonColumn m P jac tH) (hq : ∑ i, q i = Q) {s : Fin (p + 1) → ℝ} (hs : ∑ i, s i = ∑ i, cin i)
    {u : ColState r p z} (hu : Spec.Totals (∑ i, cin i) Q u) :
    redRates m P tH s u = mbedRhs (redPt m P tH cin q) (P.v * tH / (P.L * P.EBED)) P.Az (redExc cin q u) +
      redPush P tH (fun j => s j.succ - cin j.succ) := by
  unfold redPush
  have hE := h.bed.1.ne'
  have hL := h.flow.2.ne'
  have hb := h.size.ne'
  have hiso : ∀ (j : Fin p) (k : Fin (r + 1)) w, redIso m P cin q (fun l => u k.succ l.succ w - q l.succ) j =
      ceq P.K P.val (fun l => m.load P (u k.succ l w)) (∑ l, cin l) j.succ - cin j.succ := by
    intro j k w
    have e : ∀ l, q l + refill (fun l : Fin p => u k.succ l.succ w - q l.succ) l = u k.succ l w := by
      intro l
      refine Fin.cases ?_ (fun i => ?_) l
      · have h1 := hu.beads k w
        have h2 := hq
        rw [Fin.sum_univ_succ] at h1 h2
        rw [refill_zero, Finset.sum_sub_distrib]
        linarith
      · rw [refill_succ]
        ring
    unfold redIso
    simp only [e]
  have hflux : ∀ (j : Fin p) w, m.flux P (setInlet u s) j.succ w = -(P.kL j.succ * (setInlet u s 0 j.succ w - cin j.succ -
      redIso m P cin q (fun l => u (Fin.last r).succ l.succ w - q l.succ) j)) := by
    intro j w
    unfold ColModel.flux fluxJ implicitRef
    rw [if_neg (Fin.succ_ne_zero j), ion_total_in hs hu, hiso]
    beta_reduce
    rw [← Fin.succ_last]
    simp only [setInlet_bead]
    ring
  have hbead : ∀ (k : Fin (r + 1)) (j : Fin p) w, m.bead P tH (setInlet u s) k j.succ w =
      ∑ l, P.Br k l * (1 * (redAlpha m P tH j * redIso m P cin q (fun i => u l.succ i.succ w - q i.succ) j +
        P.Ds j.succ * tH / P.rb ^ 2 * (u l.succ j.succ w - q j.succ))) := by
    intro k j w
    have e : ∀ l, P.Br k l * (1 * (redAlpha m P tH j * redIso m P cin q (fun i => u l.succ i.succ w - q i.succ) j +
        P.Ds j.succ * tH / P.rb ^ 2 * (u l.succ j.succ w - q j.succ))) =
        redAlpha m P tH j * (P.Br k l * ceq P.K P.val (fun i => m.load P (u l.succ i w)) (∑ i, cin i) j.succ) +
          P.Ds j.succ * tH / P.rb ^ 2 * (P.Br k l * u l.succ j.succ w) -
          (redAlpha m P tH j * cin j.succ + P.Ds j.succ * tH / P.rb ^ 2 * q j.succ) * P.Br k l := by
      intro l
      rw [hiso]
      ring
    simp only [e, Finset.sum_sub_distrib, Finset.sum_add_distrib, ← Finset.mul_sum]
    rw [h.grid.rows, mul_zero, sub_zero]
    cases m with
    | hsdm =>
      show hsdmBead P tH _ k j.succ w = _
      unfold hsdmBead implicitRef redAlpha ionAlpha
      rw [if_neg (Fin.succ_ne_zero j)]
      beta_reduce
      simp only [setInlet_bead, zero_mul, zero_add]
    | psdm =>
      show psdmBead P tH _ k j.succ w = _
      have hpc : ∀ l, poreConc P (setInlet u s) l j.succ w =
          ceq P.K P.val (fun i => ColModel.psdm.load P (u l.succ i w)) (∑ i, cin i) j.succ := by
        intro l
        unfold poreConc
        rw [ion_total_in hs hu]
        simp only [setInlet_bead]
        rfl
      unfold psdmBead implicitRef redAlpha ionAlpha
      rw [if_neg (Fin.succ_ne_zero j)]
      beta_reduce
      simp only [setInlet_bead, hpc]
      ring
  refine Prod.ext (funext fun j => funext fun k' => ?_) (funext fun w => Prod.ext (funext fun j => funext fun k' => ?_) (funext fun j => ?_))
  · show m.rhs P tH s u k'.succ j.succ 0 = _
    rw [rhs_eq, assemble_bead]
    simp only [LinearMap.coe_toContinuousLinearMap', mbedPush, LinearMap.coe_mk, AddHom.coe_mk, Prod.fst_add, Prod.snd_add, mbedRhs, redPt, ptRhs, ptLin, mpore, redExc, beadL, surf, Pi.add_apply, Pi.smul_apply, smul_eq_mul, hflux, hbead, Pi.zero_apply]
    have e0 : setInlet u s 0 j.succ 0 = s j.succ := by simp [setInlet]
    by_cases hk : k' = Fin.last r
    · simp only [hk, if_true]
      rw [e0]
      ring
    · simp only [if_neg hk, mul_zero, add_zero]
  · show m.rhs P tH s u k'.succ j.succ w.succ = _
    rw [rhs_eq, assemble_bead]
    simp only [LinearMap.coe_toContinuousLinearMap', mbedPush, LinearMap.coe_mk, AddHom.coe_mk, Prod.fst_add, Prod.snd_add, mbedRhs, redPt, ptRhs, ptLin, mpore, redExc, beadL, surf, Pi.add_apply, Pi.smul_apply, smul_eq_mul, hflux, hbead, Pi.zero_apply,
      Prod.fst_sub, Pi.sub_apply, sub_zero]
    have e0 : setInlet u s 0 j.succ w.succ = u 0 j.succ w.succ := by simp [setInlet]
    by_cases hk : k' = Fin.last r
    · simp only [hk, if_true]
      rw [e0]
      ring
    · simp only [if_neg hk, mul_zero, add_zero]
  · show m.rhs P tH s u 0 j.succ w.succ = _
    have e0 : ∀ w : Fin z, setInlet u s 0 j.succ w.succ = u 0 j.succ w.succ := fun w => by simp [setInlet]
    have h0 := (axial_moves h.axial (fun _ => 1)).2 (fun _ => rfl) w.succ (Fin.succ_ne_zero w)
    simp only [mul_one] at h0
    rw [Fin.sum_univ_succ] at h0
    have hadv : ∑ w', P.Az w.succ w' * setInlet u s 0 j.succ w' = ∑ w' : Fin z, P.Az w.succ w'.succ * (u 0 j.succ w'.succ - cin j.succ) +
        P.Az w.succ 0 * (s j.succ - cin j.succ) := by
      rw [Fin.sum_univ_succ]
      simp only [e0, mul_sub, Finset.sum_sub_distrib, ← Finset.sum_mul]
      have e1 : setInlet u s 0 j.succ 0 = s j.succ := by simp [setInlet]
      rw [e1]
      linear_combination cin j.succ * h0
    rw [rhs_eq, assemble_liq, if_neg (Fin.succ_ne_zero w), liqRate, hadv, hflux, e0]
    simp only [LinearMap.coe_toContinuousLinearMap', mbedPush, LinearMap.coe_mk, AddHom.coe_mk, Prod.fst_add, Prod.snd_add, mbedRhs, redPt, ptRhs, ptLin, mpore, redExc, mflow, Prod.snd_sub, Pi.sub_apply, Pi.add_apply]
    field_simp
    ring


/-- Runs of the excesses are runs of the column. -/
theorem red_solves_in (h : Spec.IonColumn m P jac tH) (hq : ∑ i, q i = Q) (e : Fin (p + 1) → ℝ) {s : ℝ → Fin (p + 1) → ℝ} {T : ℝ}
    (hs : ∀ t ∈ Icc 0 T, ∑ i, s t i = ∑ i, cin i) {x : ℝ → MBed (MBead p r) p z}
    (hx : ∀ t ∈ Icc 0 T, HasDerivWithinAt x (mbedRhs (redPt m P tH cin q) (P.v * tH / (P.L * P.EBED)) P.Az (x t) +
      redPush P tH (fun j => s t j.succ - cin j.succ)) (Icc 0 T) t) :
    Spec.Solves colComp (fun t u => m.rhs P tH (s t) u) 0 T (fun t => ionState cin q e (mext (x t))) := by
  rintro t ht ⟨a, i, w⟩
  have h1 := hx t ht
  have hu := ionState_totals (cin := cin) hq e (mext_sum (x t))
  rw [show x t = redExc cin q (ionState cin q e (mext (x t))) from (redExc_state _ _).symm, ← red_rates_in h hq (hs t ht) hu] at h1
  set u := ionState cin q e (mext (x t)) with hut
  have hu' : Spec.Totals (∑ i, s t i) Q u := by rw [hs t ht]; exact hu
  have p1 : HasDerivWithinAt (fun τ => (x τ).1) (redRates m P tH (s t) u).1 (Icc 0 T) t :=
    (ContinuousLinearMap.fst ℝ (MBead p r) (Fin z → MPt (MBead p r) p)).hasFDerivAt.comp_hasDerivWithinAt t h1
  have p2 : HasDerivWithinAt (fun τ => (x τ).2) (redRates m P tH (s t) u).2 (Icc 0 T) t :=
    (ContinuousLinearMap.snd ℝ (MBead p r) (Fin z → MPt (MBead p r) p)).hasFDerivAt.comp_hasDerivWithinAt t h1
  have hrow : ∀ (g : ℝ → Fin p → ℝ) (a : Fin (r + 2)) (w : Fin (z + 1)) (c : ℝ),
      (∀ j, HasDerivWithinAt (fun τ => g τ j) (m.rhs P tH (s t) u a j.succ w) (Icc 0 T) t) →
      HasDerivWithinAt (fun τ => refill (g τ) i + c) (m.rhs P tH (s t) u a i w) (Icc 0 T) t := by
    intro g a w c hg
    refine HasDerivWithinAt.add_const c ?_
    refine Fin.cases ?_ (fun j => ?_) i
    · rw [red_first h (Q := Q) hu']
      simp only [refill_zero]
      exact (HasDerivWithinAt.fun_sum fun j _ => hg j).fun_neg
    · exact hg j
  show HasDerivWithinAt (fun τ => ionState cin q e (mext (x τ)) a i w) (m.rhs P tH (s t) u a i w) (Icc 0 T) t
  refine Fin.cases ?_ (fun k => ?_) a
  · refine Fin.cases ?_ (fun w => ?_) w
    · rw [rhs_eq, assemble_liq, if_pos rfl]
      refine (hasDerivWithinAt_const t (Icc 0 T) (e i)).congr (fun τ _ => ?_) ?_ <;> simp [ionState]
    · have p3 : HasDerivWithinAt (fun τ => ((x τ).2 w).2) ((redRates m P tH (s t) u).2 w).2 (Icc 0 T) t :=
        (ContinuousLinearMap.snd ℝ (MBead p r) (Fin p → ℝ)).hasFDerivAt.comp_hasDerivWithinAt t (hasDerivWithinAt_pi.1 p2 w)
      exact hrow (fun τ => ((x τ).2 w).2) 0 w.succ (cin i) fun j => hasDerivWithinAt_pi.1 p3 j
  · refine Fin.cases ?_ (fun w => ?_) w
    · exact hrow (fun τ j => (x τ).1 j k) k.succ 0 (q i) fun j => hasDerivWithinAt_pi.1 (hasDerivWithinAt_pi.1 p1 j) k
    · have p3 : HasDerivWithinAt (fun τ => ((x τ).2 w).1) ((redRates m P tH (s t) u).2 w).1 (Icc 0 T) t :=
        (ContinuousLinearMap.fst ℝ (MBead p r) (Fin p → ℝ)).hasFDerivAt.comp_hasDerivWithinAt t (hasDerivWithinAt_pi.1 p2 w)
      exact hrow (fun τ j => ((x τ).2 w).1 j k) k.succ w.succ (q i) fun j => hasDerivWithinAt_pi.1 (hasDerivWithinAt_pi.1 p3 j) k

/-- Totals persist under influents of constant total. -/
theorem red_totals_in (h : Spec.IonColumn m P jac tH) (hc : ∀ i, 0 < cin i) (hq : Spec.SpentLoadings m P cin Q q) {T : ℝ}
    {s : ℝ → Fin (p + 1) → ℝ} (hs : ∀ t ∈ Icc 0 T, ∑ i, s t i = ∑ i, cin i)
    {y : ℝ → ColState r p z} (hy : Spec.Solves colComp (fun t u => m.rhs P tH (s t) u) 0 T y) (h0 : Spec.Totals (∑ i, cin i) Q (y 0)) :
    ∀ t ∈ Icc 0 T, Spec.Totals (∑ i, cin i) Q (y t) := by
  intro t ht
  have hrest := red_solves (cin := cin) h hq.total cin (x := fun _ => 0) (T := T) (fun t _ => by
    have : mbedRhs (redPt m P tH cin q) (P.v * tH / (P.L * P.EBED)) P.Az (0 : MBed (MBead p r) p z) = 0 := by
      have hz := redPt_zero (tH := tH) h hc hq
      have hz' : redPt m P tH cin q ((0 : MBead p r), 0) = 0 := hz
      refine Prod.ext ?_ (funext fun w => ?_)
      · show (redPt m P tH cin q ((0 : MBead p r), 0)).1 = 0
        rw [hz']
        rfl
      · show redPt m P tH cin q 0 - ((0 : MBead p r), mflow _ P.Az 0 w) = 0
        rw [hz]
        refine Prod.ext ?_ (funext fun i => ?_)
        · simp
        · simp [mflow]
    rw [this]
    exact hasDerivWithinAt_const _ _ _)
  have hx := ionState_totals (cin := cin) hq.total cin (mext_sum (0 : MBed (MBead p r) p z))
  refine ⟨fun w hw => ?_, fun k w => ?_⟩
  · have := totals_follow m P tH (cin := fun _ => cin) (cin' := s) hs hrest hy
      (fun w hw => by rw [h0.water w hw, hx.water w hw]) t ht w hw
    rw [this, hx.water w hw]
  · rw [c28_solutions m P tH s hy ht, h0.beads]

theorem red_deriv_in (h : Spec.IonColumn m P jac tH) (hc : ∀ i, 0 < cin i) (hq : Spec.SpentLoadings m P cin Q q) {T : ℝ}
    {s : ℝ → Fin (p + 1) → ℝ} (hs : ∀ t ∈ Icc 0 T, ∑ i, s t i = ∑ i, cin i)
    {y : ℝ → ColState r p z} (hy : Spec.Solves colComp (fun t u => m.rhs P tH (s t) u) 0 T y) (h0 : Spec.Totals (∑ i, cin i) Q (y 0)) :
    ∀ t ∈ Icc 0 T, HasDerivWithinAt (fun s => redExc cin q (y s)) (mbedRhs (redPt m P tH cin q) (P.v * tH / (P.L * P.EBED)) P.Az
      (redExc cin q (y t)) + redPush P tH (fun j => s t j.succ - cin j.succ)) (Icc 0 T) t := by
  intro t ht
  rw [← red_rates_in h hq.total (hs t ht) (red_totals_in h hc hq hs hy h0 t ht)]
  refine HasDerivWithinAt.prodMk (hasDerivWithinAt_pi.2 fun i => hasDerivWithinAt_pi.2 fun k => ?_) (hasDerivWithinAt_pi.2 fun w =>
    HasDerivWithinAt.prodMk (hasDerivWithinAt_pi.2 fun i => hasDerivWithinAt_pi.2 fun k => ?_) (hasDerivWithinAt_pi.2 fun i => ?_))
  · exact (hy t ht (k.succ, i.succ, 0)).sub_const _
  · exact (hy t ht (k.succ, i.succ, w.succ)).sub_const _
  · exact (hy t ht (0, i.succ, w.succ)).sub_const _

/-- Specification: all waters below the inlet tend to `c`, all loadings to `q`, ion by ion. -/
def Spec.IonTends (cin q : Fin (p + 1) → ℝ) (y : ℝ → ColState r p z) : Prop :=
  (∀ i w, w ≠ 0 → Tendsto (fun t => y t 0 i w) atTop (nhds (cin i))) ∧
    ∀ (k : Fin (r + 1)) i w, Tendsto (fun t => y t k.succ i w) atTop (nhds (q i))

theorem ionTends_of (hq : ∑ i, q i = Q) {y : ℝ → ColState r p z} (hy : ∀ t, 0 ≤ t → Spec.Totals (∑ i, cin i) Q (y t))
    (h : Tendsto (fun t => redExc cin q (y t)) atTop (𝓝 0)) : Spec.IonTends cin q y := by
  have hlim : Tendsto (fun t => ((p : ℝ) + 1) * ‖redExc cin q (y t)‖) atTop (𝓝 0) := by
    simpa using (tendsto_zero_iff_norm_tendsto_zero.1 h).const_mul ((p : ℝ) + 1)
  have key : ∀ (f : ℝ → ℝ) (b : ℝ), (∀ t, 0 ≤ t → |f t - b| ≤ (p + 1) * ‖redExc cin q (y t)‖) → Tendsto f atTop (nhds b) := fun f b hf => by
    rw [tendsto_iff_dist_tendsto_zero]
    refine squeeze_zero' (Eventually.of_forall fun t => dist_nonneg) ?_ hlim
    filter_upwards [eventually_ge_atTop 0] with t ht
    rw [Real.dist_eq]
    exact hf t ht
  have hw := fun t ht => redExc_within hq (hy t ht) (norm_nonneg (redExc cin q (y t))) le_rfl
  exact ⟨fun i w hw0 => key _ _ fun t ht => (hw t ht).1 i w hw0, fun k i w => key _ _ fun t ht => (hw t ht).2 k i w⟩

/-- Both bounds with the same constants. -/
theorem ion_waver (h : Spec.MildColumn m P jac tH cin q) (hc : ∀ i, 0 < cin i) (hq : Spec.SpentLoadings m P cin Q q) :
    ∃ δ C ω : ℝ, 0 < δ ∧ 0 < C ∧ 0 < ω ∧
    (∀ (ε β T : ℝ) (s : ℝ → Fin (p + 1) → ℝ) (y : ℝ → ColState r p z), Spec.Solves colComp (fun t u => m.rhs P tH (s t) u) 0 T y →
      (∀ t ∈ Icc 0 T, ∑ i, s t i = ∑ i, cin i) → (∀ t ∈ Icc 0 T, ∀ i, |s t i - cin i| ≤ β) → Spec.Totals (∑ i, cin i) Q (y 0) →
      Spec.IonWithin cin q ε (y 0) → ε ≤ δ → β ≤ δ →
      ∀ t ∈ Icc 0 T, Spec.IonWithin cin q (C * (Real.exp (-(ω * t)) * ε + β)) (y t)) ∧
    ∀ (s : ℝ → Fin (p + 1) → ℝ) (y : ℝ → ColState r p z), (∀ T, Spec.Solves colComp (fun t u => m.rhs P tH (s t) u) 0 T y) →
      (∀ t, 0 ≤ t → ∑ i, s t i = ∑ i, cin i) → (∀ t, 0 ≤ t → ∀ i, |s t i - cin i| ≤ δ) → Spec.Totals (∑ i, cin i) Q (y 0) →
      Spec.IonWithin cin q δ (y 0) → (∀ i, Tendsto (fun t => s t i) atTop (𝓝 (cin i))) → Spec.IonTends cin q y := by
  obtain ⟨L, e, H, ℓ, lam, he, hL⟩ := red_energy h hc hq
  obtain ⟨G, hG⟩ := axial_form h.axial
  set B := redPush P tH with hB
  obtain ⟨C0, ω0, hC0, hω0, hM⟩ := mbed_settle (z := z) he (axial_moves h.axial) hG (red_flow h.toIonColumn)
  obtain ⟨δ, C, ω, hδ, hC, hω, h1, h2⟩ := near_waver hω0 hC0 hM (mbed_small (κ := P.v * tH / (P.L * P.EBED)) (A := P.Az) hL
    (redPt_zero h.toIonColumn hc hq)) (norm_nonneg B)
  have hpush : ∀ (β : ℝ) (s : Fin (p + 1) → ℝ), 0 ≤ β → (∀ i, |s i - cin i| ≤ β) → ‖B (fun j => s j.succ - cin j.succ)‖ ≤ ‖B‖ * β :=
    fun β s hβ hs => (B.le_opNorm _).trans (mul_le_mul_of_nonneg_left ((pi_norm_le_iff_of_nonneg hβ).2 fun i => hs i.succ) (norm_nonneg B))
  refine ⟨δ, (p + 1) * C, ω, hδ, by positivity, hω, fun ε β T s y hy hst hs hT h0 hε hβ t ht => ?_, fun s y hy hst hs hT h0 hlim => ?_⟩
  · have hε0 : 0 ≤ ε := (abs_nonneg _).trans (h0.2 0 0 0)
    have hβ0 : 0 ≤ β := (abs_nonneg _).trans (hs t ht 0)
    have hn := redExc_norm hε0 h0
    have := h1 (fun t => redExc cin q (y t)) (fun t => B (fun j => s t j.succ - cin j.succ)) T β (red_deriv_in h.toIonColumn hc hq hst hy hT) hβ0
      (fun t ht => hpush β (s t) hβ0 (hs t ht)) (hn.trans hε) hβ t ht
    have h3 := redExc_within hq.total (red_totals_in h.toIonColumn hc hq hst hy hT t ht) (ε := C * (Real.exp (-(ω * t)) * ε + β)) (by positivity)
      (this.trans (mul_le_mul_of_nonneg_left (add_le_add (mul_le_mul_of_nonneg_left hn (Real.exp_pos _).le) le_rfl) hC.le))
    rwa [← mul_assoc] at h3
  · refine ionTends_of hq.total (fun t ht => red_totals_in h.toIonColumn hc hq (fun t ht => hst t ht.1) (hy t) hT t ⟨ht, le_rfl⟩)
      (h2 _ (fun t => B (fun j => s t j.succ - cin j.succ)) (fun T => red_deriv_in h.toIonColumn hc hq (fun t ht => hst t ht.1) (hy T) hT)
        (fun t ht => hpush δ (s t) hδ.le (hs t ht)) (redExc_norm hδ.le h0) ?_)
    have h3 : Tendsto (fun t => fun j : Fin p => s t j.succ - cin j.succ) atTop (𝓝 0) :=
      tendsto_pi_nhds.2 fun i => by simpa using (hlim i.succ).sub_const (cin i.succ)
    have h4 := (B.continuous.tendsto 0).comp h3
    rwa [map_zero] at h4

/-- C274. There are constants such that, while the influent keeps its total and every ion stays within `β` of `cin`, and the start is within `ε`
of exhaustion by `cin`, both at most `δ`, all waters and loadings of all ions stay within `C (exp (-ωt) ε + β)` of it. -/
theorem c274_gain (h : Spec.MildColumn m P jac tH cin q) (hc : ∀ i, 0 < cin i) (hq : Spec.SpentLoadings m P cin Q q) :
    ∃ δ C ω : ℝ, 0 < δ ∧ 0 < C ∧ 0 < ω ∧
    ∀ (ε β T : ℝ) (s : ℝ → Fin (p + 1) → ℝ) (y : ℝ → ColState r p z), Spec.Solves colComp (fun t u => m.rhs P tH (s t) u) 0 T y →
      (∀ t ∈ Icc 0 T, ∑ i, s t i = ∑ i, cin i) → (∀ t ∈ Icc 0 T, ∀ i, |s t i - cin i| ≤ β) → Spec.Totals (∑ i, cin i) Q (y 0) →
      Spec.IonWithin cin q ε (y 0) → ε ≤ δ → β ≤ δ →
      ∀ t ∈ Icc 0 T, Spec.IonWithin cin q (C * (Real.exp (-(ω * t)) * ε + β)) (y t) := by
  obtain ⟨δ, C, ω, hδ, hC, hω, h1, -⟩ := ion_waver h hc hq
  exact ⟨δ, C, ω, hδ, hC, hω, h1⟩

/-- C274. A column that starts near exhaustion by `cin`, under an influent of constant total that stays near `cin` and tends to it, tends to
exhaustion. -/
theorem c274_tends (h : Spec.MildColumn m P jac tH cin q) (hc : ∀ i, 0 < cin i) (hq : Spec.SpentLoadings m P cin Q q) :
    ∃ δ : ℝ, 0 < δ ∧ ∀ (s : ℝ → Fin (p + 1) → ℝ) (y : ℝ → ColState r p z), (∀ T, Spec.Solves colComp (fun t u => m.rhs P tH (s t) u) 0 T y) →
      (∀ t, 0 ≤ t → ∑ i, s t i = ∑ i, cin i) → (∀ t, 0 ≤ t → ∀ i, |s t i - cin i| ≤ δ) → Spec.Totals (∑ i, cin i) Q (y 0) →
      Spec.IonWithin cin q δ (y 0) → (∀ i, Tendsto (fun t => s t i) atTop (𝓝 (cin i))) → Spec.IonTends cin q y := by
  obtain ⟨δ, -, -, hδ, -, -, -, h2⟩ := ion_waver h hc hq
  exact ⟨δ, hδ, h2⟩

theorem col_shift_in {F : ℝ → ColState r p z → ColState r p z} {y : ℝ → ColState r p z} {s T : ℝ} (hs : 0 ≤ s)
    (hy : Spec.Solves colComp F 0 (s + T) y) : Spec.Solves colComp (fun t u => F (s + t) u) 0 T (fun t => y (s + t)) := by
  intro t ht a
  have h1 := hy (s + t) ⟨by linarith [ht.1], by linarith [ht.2]⟩ a
  have h2 : HasDerivWithinAt (fun τ : ℝ => s + τ) 1 (Icc 0 T) t := ((hasDerivAt_id t).const_add s).hasDerivWithinAt
  have h3 := HasDerivWithinAt.comp (h := fun τ : ℝ => s + τ) t h1 h2 (fun τ hτ => ⟨by linarith [hτ.1], by linarith [hτ.2]⟩)
  rw [mul_one] at h3
  exact h3

/-- C274. Whatever its start with these totals and the past of an influent of constant total that settles at `cin`, a run for all time either
keeps away from exhaustion by `cin` from some time on, by `δ` in some loading or concentration, or tends to it. -/
theorem c274_either (h : Spec.MildColumn m P jac tH cin q) (hc : ∀ i, 0 < cin i) (hq : Spec.SpentLoadings m P cin Q q) :
    ∃ δ : ℝ, 0 < δ ∧ ∀ (s : ℝ → Fin (p + 1) → ℝ) (y : ℝ → ColState r p z), (∀ T, Spec.Solves colComp (fun t u => m.rhs P tH (s t) u) 0 T y) →
    (∀ t, 0 ≤ t → ∑ i, s t i = ∑ i, cin i) → Spec.Totals (∑ i, cin i) Q (y 0) → (∀ i, Tendsto (fun t => s t i) atTop (𝓝 (cin i))) →
    (∃ s0, ∀ t, s0 ≤ t → ¬ Spec.IonWithin cin q δ (y t)) ∨ Spec.IonTends cin q y := by
  obtain ⟨δ, hδ, h2⟩ := c274_tends h hc hq
  refine ⟨δ, hδ, fun s y hy hst hT hlim => ?_⟩
  obtain ⟨s1, hs1⟩ := eventually_atTop.1 (eventually_all.2 fun i => (hlim i).eventually (Metric.closedBall_mem_nhds (cin i) hδ))
  by_cases hw : ∃ s0, max 0 s1 ≤ s0 ∧ Spec.IonWithin cin q δ (y s0)
  · obtain ⟨s0, hs0, hw⟩ := hw
    right
    have h00 : 0 ≤ s0 := (le_max_left _ _).trans hs0
    have hsh : Tendsto (fun t : ℝ => t - s0) atTop atTop := tendsto_atTop_add_const_right _ (-s0) tendsto_id
    have hsh' : Tendsto (fun t : ℝ => s0 + t) atTop atTop := tendsto_atTop_add_const_left _ s0 tendsto_id
    have hT0 := red_totals_in h.toIonColumn hc hq (fun t ht => hst t ht.1) (hy s0) hT s0 ⟨h00, le_rfl⟩
    have ht := h2 (fun t => s (s0 + t)) (fun t => y (s0 + t)) (fun T => col_shift_in h00 (hy _)) (fun t ht => hst _ (by linarith)) (fun t ht i => by
      have := hs1 (s0 + t) (by have := le_max_right 0 s1; linarith) i
      rwa [Real.dist_eq] at this) (by rw [add_zero]; exact hT0) (by rw [add_zero]; exact hw) (fun i => (hlim i).comp hsh')
    refine ⟨fun i w hw => ((ht.1 i w hw).comp hsh).congr fun t => ?_, fun k i w => ((ht.2 k i w).comp hsh).congr fun t => ?_⟩
    · show y (s0 + (t - s0)) _ _ _ = _
      rw [add_sub_cancel]
    · show y (s0 + (t - s0)) _ _ _ = _
      rw [add_sub_cancel]
  · left
    push Not at hw
    exact ⟨max 0 s1, hw⟩

/-- C274. Under influents of constant total that vary continuously near `cin` there is a run for all time from every state near exhaustion
with these totals, and exactly one. -/
theorem c274_run (h : Spec.MildColumn m P jac tH cin q) (hc : ∀ i, 0 < cin i) (hq : Spec.SpentLoadings m P cin Q q) :
    ∃ δ : ℝ, 0 < δ ∧ ∀ s : ℝ → Fin (p + 1) → ℝ, Continuous s → (∀ t, ∑ i, s t i = ∑ i, cin i) → (∀ t i, |s t i - cin i| ≤ δ) →
    ∀ u : ColState r p z, Spec.Totals (∑ i, cin i) Q u → Spec.IonWithin cin q δ u →
    ∃ y : ℝ → ColState r p z, y 0 = u ∧ (∀ T, Spec.Solves colComp (fun t u => m.rhs P tH (s t) u) 0 T y) ∧
      ∀ T x, Spec.Solves colComp (fun t u => m.rhs P tH (s t) u) 0 T x → x 0 = u → ∀ t ∈ Icc 0 T, x t = y t := by
  obtain ⟨L, e, H, ℓ, lam, he, hL⟩ := red_energy h hc hq
  obtain ⟨G, hG⟩ := axial_form h.axial
  set B := redPush P tH with hB
  obtain ⟨δ, hδ, hx⟩ := mbed_run_in (z := z) he (axial_moves h.axial) hG (red_flow h.toIonColumn)
    (ptRhs_smooth (redIso_smooth h.toIonColumn hc hq)) hL (redPt_zero h.toIonColumn hc hq) (norm_nonneg B)
  refine ⟨δ, hδ, fun s hs hst hsδ u hT hu => ?_⟩
  obtain ⟨x, hx0, hxd, hxu⟩ := hx (fun t => B (fun j => s t j.succ - cin j.succ)) (B.continuous.comp (continuous_pi fun j =>
    ((continuous_apply j.succ).comp hs).sub continuous_const)) (fun t =>
    (B.le_opNorm _).trans (mul_le_mul_of_nonneg_left ((pi_norm_le_iff_of_nonneg hδ.le).2 fun i => hsδ t i.succ) (norm_nonneg B)))
    (redExc cin q u) (redExc_norm hδ.le hu)
  refine ⟨fun t => ionState cin q (fun i => u 0 i 0) (mext (x t)), ?_, fun T => red_solves_in h.toIonColumn hq.total _ (fun t _ => hst t) (hxd T),
    fun T x' hx' h0 t ht => ?_⟩
  · beta_reduce
    rw [hx0, mext_exc hq.total hT]
    exact ionState_exc fun _ => rfl
  · have hT' : Spec.Totals (∑ i, cin i) Q (x' 0) := by rw [h0]; exact hT
    have h1 := hxu T (fun s => redExc cin q (x' s)) (by beta_reduce; rw [h0]) (red_deriv_in h.toIonColumn hc hq (fun t _ => hst t) hx' hT') t ht
    have h2 : ∀ i, x' t 0 i 0 = u 0 i 0 := by
      intro i
      rw [← h0]
      refine constant_of_derivWithin_zero (f := fun s => x' s 0 i 0) (a := 0) (b := T)
        (fun s hs => (hx' s hs (0, i, 0)).differentiableWithinAt) (fun τ hs => ?_) t ht
      have h3 := hx' τ ⟨hs.1, hs.2.le⟩ (0, i, 0)
      have h4 : colComp (0, i, 0) (m.rhs P tH (s τ) (x' τ)) = 0 := by
        show m.rhs P tH (s τ) (x' τ) 0 i 0 = 0
        rw [rhs_eq, assemble_liq, if_pos rfl]
      beta_reduce at h3
      rw [h4] at h3
      exact h3.derivWithin (uniqueDiffOn_Icc (hs.1.trans_lt hs.2) τ ⟨hs.1, hs.2.le⟩)
    beta_reduce
    rw [← h1, mext_exc hq.total (red_totals_in h.toIonColumn hc hq (fun t _ => hst t) hx' hT' t ht)]
    exact (ionState_exc h2).symm

end

/-- A column with sulfate and nitrate of mobilities that differ by a factor 16, and its loadings when exhausted. -/
theorem ion_column_ex (m : ColModel) (r z : ℕ) (A : Fin (z + 1) → Fin (z + 1) → ℝ) (hA : Spec.AxialGrid z A) : ∃ (P : ColParams r 2 z)
    (jac : Fin r → ℝ) (q : Fin 3 → ℝ) (Q : ℝ), Spec.MildColumn m P jac 1 ![8, 1, 2] q ∧ Spec.SpentLoadings m P ![8, 1, 2] Q q ∧
    P.Ds 2 = 16 * P.Ds 1 ∧ P.kL 1 = 9 * P.kL 2 := by
  obtain ⟨jac, B, W, g⟩ := beadGrid_exists r
  let P : ColParams r 2 z := ⟨1 / 2, 1, 1, 1, 5, 1 / 2, ![1, 9, 1], ![1, 1, 16], ![1, 3, 18], ![1, 3, 2], ![1, 2, 1], A, B, W⟩
  have hP : Spec.IonColumn m P jac 1 := ⟨g, hA, by show (0 : ℝ) < 1 / 2 ∧ (1 / 2 : ℝ) < 1; norm_num, ⟨one_pos, one_pos⟩, one_pos, one_pos,
    fun _ => ⟨by show (0 : ℝ) ≤ 1 / 2; norm_num, by show (1 / 2 : ℝ) < 1; norm_num⟩, ⟨rfl, fun i => by fin_cases i <;> simp [P]⟩,
    ⟨rfl, fun i => by fin_cases i <;> simp [P]⟩⟩
  have hc : ∀ i, 0 < (![8, 1, 2] : Fin 3 → ℝ) i := fun i => by fin_cases i <;> simp
  set d := colDiv m P with hd
  have hd0 : 0 < d := colDiv_pos hP
  let q : Fin 3 → ℝ := ![d * 8, d * 3, d * 4]
  have hq : Spec.SpentLoadings m P ![8, 1, 2] (d * 15) q := by
    refine ⟨fun i => ?_, ?_, fun i => ?_⟩
    · fin_cases i <;> simp [q, hd0]
    · rw [Fin.sum_univ_three]
      simp [q]
      ring
    · beta_reduce
      rw [load_colDiv, load_colDiv, ← hd]
      fin_cases i
      · simp [q, P]
        ring
      · simp [q, P]
        field_simp
      · simp [q, P]
        field_simp
        norm_num
  have hvc : ∀ a, 0 < P.val a * (![8, 1, 2] : Fin 3 → ℝ) a := fun a => mul_pos (mild_val hP a) (hc a)
  have hvq : ∀ a, 0 < P.val a * q a := fun a => mul_pos (mild_val hP a) (hq.pos a)
  have hM : Spec.MildColumn m P jac 1 ![8, 1, 2] q := by
    refine ⟨hP, c265_spread hvc (l := 1) (ρ := 4) one_pos (by norm_num) (fun i => ?_) ?_,
      c265_spread hvq (l := 1) (ρ := 4) one_pos (by norm_num) (fun i => ?_) ?_,
      fun _ => Or.inr (c265_spread hvc (l := 1) (ρ := 4) one_pos (by norm_num) (fun i => ?_) ?_)⟩
    · fin_cases i <;> simp [P] <;> norm_num
    · rw [Fin.sum_univ_two]
      simp [P]
      norm_num
    · fin_cases i <;> simp [P] <;> norm_num
    · rw [Fin.sum_univ_two]
      simp [P, q]
      nlinarith
    · fin_cases i <;> simp [P] <;> norm_num
    · rw [Fin.sum_univ_two]
      simp [P]
      norm_num
  exact ⟨P, jac, q, _, hM, hq, by simp [P], by simp [P]⟩

/-- The hypotheses meet: sulfate and nitrate of mobilities that differ by a factor 16, an exhausted column, and an influent that trades chloride
for nitrate and back for ever; the column stays near exhaustion. -/
example (m : ColModel) (r z : ℕ) (A : Fin (z + 1) → Fin (z + 1) → ℝ) (hA : Spec.AxialGrid z A) : ∃ (P : ColParams r 2 z) (q : Fin 3 → ℝ)
    (β C : ℝ) (y : ℝ → ColState r 2 z), P.Ds 2 = 16 * P.Ds 1 ∧ P.kL 1 = 9 * P.kL 2 ∧ (∀ i, 0 < q i) ∧ 0 < β ∧
    (∀ T, Spec.Solves colComp (fun t u => m.rhs P 1 ![8 - β * Real.sin t, 1, 2 + β * Real.sin t] u) 0 T y) ∧
    ∀ t, 0 ≤ t → Spec.IonWithin ![8, 1, 2] q (C * β) (y t) := by
  obtain ⟨P, jac, q, Q, hM, hq, hP1, hP2⟩ := ion_column_ex m r z A hA
  have hc : ∀ i, 0 < (![8, 1, 2] : Fin 3 → ℝ) i := fun i => by fin_cases i <;> simp
  obtain ⟨δ1, hδ1, hrun⟩ := c274_run hM hc hq
  obtain ⟨δ2, C, ω, hδ2, hC, hω, hgain⟩ := c274_gain hM hc hq
  set δ := min δ1 δ2 with hδ
  have hδ0 : 0 < δ := lt_min hδ1 hδ2
  set s : ℝ → Fin 3 → ℝ := fun t => ![8 - δ * Real.sin t, 1, 2 + δ * Real.sin t] with hs
  have hsc : Continuous s := by
    refine continuous_pi fun i => ?_
    fin_cases i
    · show Continuous fun t => 8 - δ * Real.sin t
      fun_prop
    · exact continuous_const
    · show Continuous fun t => 2 + δ * Real.sin t
      fun_prop
  have hst : ∀ t, ∑ i, s t i = ∑ i, (![8, 1, 2] : Fin 3 → ℝ) i := fun t => by
    rw [Fin.sum_univ_three, Fin.sum_univ_three]
    simp [s]
    ring
  have hsd : ∀ t i, |s t i - (![8, 1, 2] : Fin 3 → ℝ) i| ≤ δ := fun t i => by
    have h1 : |δ * Real.sin t| ≤ δ := by
      rw [abs_mul, abs_of_pos hδ0]
      nlinarith [Real.abs_sin_le_one t]
    fin_cases i
    · simpa [s] using h1
    · simpa [s] using hδ0.le
    · simpa [s] using h1
  have hxs : msum (0 : MBed (MBead 3 r) 3 z) = 0 := by
    refine Prod.ext (funext fun _ => funext fun k => ?_) (funext fun w => Prod.ext (funext fun _ => funext fun k => ?_) (funext fun _ => ?_)) <;>
      simp [msum]
  set u := ionState ![8, 1, 2] q ![8, 1, 2] (0 : MBed (MBead 3 r) 3 z) with hu
  have hT : Spec.Totals (∑ i, (![8, 1, 2] : Fin 3 → ℝ) i) Q u := ionState_totals hq.total _ hxs
  have hw : ∀ e, 0 ≤ e → Spec.IonWithin ![8, 1, 2] q e u := fun e he =>
    (ionExc_norm he).1 (by rw [ionExc_state, norm_zero]; exact he)
  obtain ⟨y, hy0, hy, -⟩ := hrun s hsc hst (fun t i => (hsd t i).trans (min_le_left _ _)) u hT (hw _ hδ1.le)
  refine ⟨P, q, δ, C, y, hP1, hP2, hq.pos, hδ0, hy, fun t ht => ?_⟩
  have := hgain 0 δ t s y (hy t) (fun t _ => hst t) (fun t _ => hsd t) (by rw [hy0]; exact hT) (by rw [hy0]; exact hw 0 le_rfl) hδ2.le
    (min_le_right _ _) t ⟨ht, le_rfl⟩
  simpa using this

end WTM
